import Verif.Model.Deps
import Verif.Props.Graph
import Mathlib.Tactic

/-!
C61: the functions of a module may be written in any order: each one is compiled when all functions it refers to are known.
-/
namespace Ferlium.Closure

mutual

/-- The names of functions which occur in compiled code, closures included. -/
def Code.fns : Code → List String
  | .const _ => []
  | .load _ => []
  | .fn n => [n]
  | .closure _ _ body => body.fns
  | .call f args => f.fns ++ args.fns
  | .block ss => ss.fns
  | .store _ e => e.fns
  | .fail => []
  | .variant _ args => args.fns
  | .cases c arms => c.fns ++ arms.fns

def Codes.fns : Codes → List String
  | .nil => []
  | .cons e rest => e.fns ++ rest.fns

def CStmts.fns : CStmts → List String
  | .last e => e.fns
  | .letS _ e rest => e.fns ++ rest.fns
  | .run e rest => e.fns ++ rest.fns

def CArms.fns : CArms → List String
  | .none => []
  | .default e => e.fns
  | .arm _ _ _ body rest => body.fns ++ rest.fns

end

theorem get_cons (m : String) (k : Nat) (env : CEnv) (n : String) :
    (CEnv.get ((m, k) :: env) n).isSome ↔ n = m ∨ (env.get n).isSome := by
  simp only [CEnv.get, List.lookup_cons]
  by_cases h : n = m
  · subst h; simp
  · have : (n == m) = false := by simpa using h
    rw [this]; simp [h]

theorem get_declare (ns : List String) : ∀ (env : CEnv) (k : Nat) (n : String),
    ((env.declare ns k).get n).isSome ↔ n ∈ ns ∨ (env.get n).isSome := by
  induction ns with
  | nil => intro env k n; simp [CEnv.declare]
  | cons m ns ih =>
    intro env k n
    simp only [CEnv.declare]
    rw [ih, get_cons, List.mem_cons]; tauto

/-- All locals of the first pass are locals of the second one. -/
def Known (locals : List String) (env : CEnv) : Prop := ∀ n ∈ locals, (env.get n).isSome

theorem Known.cons {locals : List String} {env : CEnv} (h : Known locals env) (n : String) (k : Nat) :
    Known (n :: locals) ((n, k) :: env) := by
  intro m hm
  rw [get_cons]
  rcases List.mem_cons.mp hm with rfl | hm
  · exact .inl rfl
  · exact .inr (h m hm)

theorem Known.declare {locals : List String} {env : CEnv} (h : Known locals env) (ns : List String) (k : Nat) :
    Known (ns ++ locals) (env.declare ns k) := by
  intro m hm
  rw [get_declare]
  rcases List.mem_append.mp hm with hm | hm
  · exact .inl hm
  · exact .inr (h m hm)

theorem known_nil (env : CEnv) : Known [] env := fun _ h => nomatch h

mutual

theorem Expr.fns_deps : ∀ (e : Expr) (locals : List String) (env : CEnv) (k : Nat), Known locals env →
    ∀ n ∈ (e.compile env k).1.fns, n ≠ fromInt → n ∈ e.deps locals
  | .num _, locals, env, k, hk, n, hn, h0 => by
    simp only [Expr.compile, Code.fns, Codes.fns, List.append_nil] at hn
    split at hn
    · simp [Code.fns] at hn
    · simp only [Code.fns, List.mem_singleton] at hn; exact absurd hn h0
  | .raw _, locals, env, k, hk, n, hn, _ => by simp [Expr.compile, Code.fns] at hn
  | .ident m, locals, env, k, hk, n, hn, _ => by
    simp only [Expr.compile] at hn
    split at hn
    · simp [Code.fns] at hn
    · rename_i h
      simp only [Code.fns, List.mem_singleton] at hn
      subst hn
      have : n ∉ locals := fun hm => by have := hk n hm; rw [h] at this; exact nomatch this
      simp [Expr.deps, this]
  | .lam params body, locals, env, k, hk, n, hn, h0 => by
    simp only [Expr.compile, Code.fns] at hn
    refine Expr.fns_deps body params _ _ ?_ n hn h0
    have := (known_nil (CEnv.declare [] (captured params body env) 0)).declare params (captured params body env).length
    simpa using this
  | .app f args, locals, env, k, hk, n, hn, h0 => by
    simp only [Expr.compile, Code.fns, List.mem_append] at hn
    simp only [Expr.deps, List.mem_append]
    exact hn.imp (fun h => Expr.fns_deps f locals _ _ hk n h h0) (fun h => Exprs.fns_deps args locals _ _ hk n h h0)
  | .block ss, locals, env, k, hk, n, hn, h0 => by
    simp only [Expr.compile, Code.fns] at hn
    exact Stmts.fns_deps ss locals _ _ hk n hn h0
  | .assign m e, locals, env, k, hk, n, hn, h0 => by
    simp only [Expr.compile] at hn
    simp only [Expr.deps, List.mem_append]
    split at hn
    · exact .inr (Expr.fns_deps e locals _ _ hk n hn h0)
    · simp [Code.fns] at hn
  | .variant _ args, locals, env, k, hk, n, hn, h0 => by
    simp only [Expr.compile, Code.fns] at hn
    exact Exprs.fns_deps args locals _ _ hk n hn h0
  | .cases c (.default e), locals, env, k, hk, n, hn, h0 => by
    simp only [Expr.compile] at hn
    simp only [Expr.deps, Arms.deps, List.mem_append]
    exact .inr (Expr.fns_deps e locals _ _ hk n hn h0)
  | .cases c .none, locals, env, k, hk, n, hn, h0 => by
    simp only [Expr.compile, Code.fns, List.mem_append] at hn
    simp only [Expr.deps, List.mem_append]
    exact hn.imp (fun h => Expr.fns_deps c locals _ _ hk n h h0) (fun h => Arms.fns_deps .none locals _ _ hk n h h0)
  | .cases c (.arm t vs b rest), locals, env, k, hk, n, hn, h0 => by
    simp only [Expr.compile, Code.fns, List.mem_append] at hn
    simp only [Expr.deps, List.mem_append]
    exact hn.imp (fun h => Expr.fns_deps c locals _ _ hk n h h0)
      (fun h => Arms.fns_deps (.arm t vs b rest) locals _ _ hk n h h0)

theorem Exprs.fns_deps : ∀ (e : Exprs) (locals : List String) (env : CEnv) (k : Nat), Known locals env →
    ∀ n ∈ (e.compile env k).1.fns, n ≠ fromInt → n ∈ e.deps locals
  | .nil, locals, env, k, hk, n, hn, _ => by simp [Exprs.compile, Codes.fns] at hn
  | .cons e rest, locals, env, k, hk, n, hn, h0 => by
    simp only [Exprs.compile, Codes.fns, List.mem_append] at hn
    simp only [Exprs.deps, List.mem_append]
    exact hn.imp (fun h => Expr.fns_deps e locals _ _ hk n h h0) (fun h => Exprs.fns_deps rest locals _ _ hk n h h0)

theorem Stmts.fns_deps : ∀ (e : Stmts) (locals : List String) (env : CEnv) (k : Nat), Known locals env →
    ∀ n ∈ (e.compile env k).1.fns, n ≠ fromInt → n ∈ e.deps locals
  | .last e, locals, env, k, hk, n, hn, h0 => by
    simp only [Stmts.compile, CStmts.fns] at hn
    exact Expr.fns_deps e locals _ _ hk n hn h0
  | .letS m e rest, locals, env, k, hk, n, hn, h0 => by
    simp only [Stmts.compile, CStmts.fns, List.mem_append] at hn
    simp only [Stmts.deps, List.mem_append]
    exact hn.imp (fun h => Expr.fns_deps e locals _ _ hk n h h0)
      (fun h => Stmts.fns_deps rest (m :: locals) _ _ (hk.cons m _) n h h0)
  | .run e rest, locals, env, k, hk, n, hn, h0 => by
    simp only [Stmts.compile, CStmts.fns, List.mem_append] at hn
    simp only [Stmts.deps, List.mem_append]
    exact hn.imp (fun h => Expr.fns_deps e locals _ _ hk n h h0) (fun h => Stmts.fns_deps rest locals _ _ hk n h h0)

theorem Arms.fns_deps : ∀ (e : Arms) (locals : List String) (env : CEnv) (k : Nat), Known locals env →
    ∀ n ∈ (e.compile env k).1.fns, n ≠ fromInt → n ∈ e.deps locals
  | .none, locals, env, k, hk, n, hn, _ => by simp [Arms.compile, CArms.fns] at hn
  | .default e, locals, env, k, hk, n, hn, h0 => by
    simp only [Arms.compile, CArms.fns] at hn
    exact Expr.fns_deps e locals _ _ hk n hn h0
  | .arm _ vars body rest, locals, env, k, hk, n, hn, h0 => by
    simp only [Arms.compile, CArms.fns, List.mem_append] at hn
    simp only [Arms.deps, List.mem_append]
    exact hn.imp (fun h => Expr.fns_deps body (vars ++ locals) _ _ (hk.declare vars _) n h h0)
      (fun h => Arms.fns_deps rest locals _ _ hk n h h0)

end

theorem depGraph_wf (fs : List Function) : Graph.WF (depGraph fs) := by
  rintro u v ⟨l, hl, hv⟩
  simp only [depGraph, List.getElem?_map, Option.map_eq_some_iff] at hl
  obtain ⟨f, _, rfl⟩ := hl
  obtain ⟨n, _, hn⟩ := List.mem_filterMap.mp hv
  simp only [depGraph, List.length_map]
  exact (List.findIdx?_eq_some_iff_getElem.mp hn).1

/-- Whatever the order of the functions in the text and of the hash sets involved, every function is compiled exactly once,
and when a group of functions is compiled then every function of the module whose name occurs in the code of one of them
(nested closures included) has been compiled before or belongs to the same group.

Missing: names which come from literals, see `C61_literals_violated`. -/
theorem C61_definitions_in_any_order_partial (fs : List Function) (hd : (fs.map Function.name).Nodup)
    (order : List Nat → List Nat) (horder : ∀ l, (order l).Perm l) :
    ∃ r, compileOrder order fs = some r ∧ r.flatten.Perm (List.range fs.length) ∧
      ∀ A c B, r = A ++ c :: B → ∀ i ∈ c, ∀ f, fs[i]? = some f →
        ∀ (j : Nat) (g : Function), fs[j]? = some g → g.name ≠ fromInt → g.name ∈ f.code.fns → j ∈ c ∨ j ∈ A.flatten := by
  obtain ⟨r, hr, hp, -, h⟩ := Graph.C23_callees_first (depGraph fs) (depGraph_wf fs) order horder
  refine ⟨r, hr, by simpa [depGraph] using hp, ?_⟩
  intro A c B hAB i hi f hf j g hg hn hm
  refine h A c B hAB i hi j (Graph.reach_edge ⟨(f.body.deps f.params).filterMap (fnIndex fs), ?_, ?_⟩)
  · simp [depGraph, hf]
  · refine List.mem_filterMap.mpr ⟨g.name, ?_, ?_⟩
    · refine Expr.fns_deps f.body f.params _ _ ?_ g.name hm hn
      have := (known_nil []).declare f.params 0
      simpa using this
    · obtain ⟨hj, hjg⟩ := List.getElem?_eq_some_iff.mp hg
      refine List.findIdx?_eq_some_iff_getElem.mpr ⟨hj, by simp [hjg], fun k hk => ?_⟩
      simp only [decide_eq_true_eq]
      intro heq
      have h2 : (fs.map Function.name)[k]'(by simp; omega) = (fs.map Function.name)[j]'(by simpa using hj) := by
        simp [heq, hjg]
      have := (List.Nodup.getElem_inj_iff hd).mp h2
      omega

/-- A caller written before the function it refers to in a closure, where a local of the caller has the same name as a third
function. -/
example : ∃ fs : List Function, (fs.map Function.name).Nodup ∧ ∃ f g, fs[0]? = some f ∧ fs[1]? = some g ∧
    g.name ≠ fromInt ∧ g.name ∈ f.code.fns ∧ "h" ∉ f.code.fns ∧ Graph.Edge (depGraph fs) 0 1 ∧ ¬ Graph.Edge (depGraph fs) 1 0 :=
  ⟨[⟨"f", ["h"], .lam ["y"] (.app (.ident "g") (.cons (.ident "h") .nil))⟩, ⟨"g", ["x"], .ident "x"⟩, ⟨"h", [], .raw 1⟩],
    by decide, _, _, rfl, rfl, by decide, by decide, by decide, ⟨[1, 2], by decide, by decide⟩, by
      rintro ⟨l, hl, h⟩
      have : l = [] := by
        have e : (depGraph [⟨"f", ["h"], .lam ["y"] (.app (.ident "g") (.cons (.ident "h") .nil))⟩,
          ⟨"g", ["x"], .ident "x"⟩, ⟨"h", [], .raw 1⟩])[1]? = some [] := by decide
        rw [e] at hl; exact (Option.some.inj hl).symm
      rw [this] at h; exact nomatch h⟩

/-- A function with a literal, and a function called `from_int`. -/
def literalUser : Function := ⟨"f", [], .num 5⟩
def ownFromInt : Function := ⟨fromInt, ["x"], .raw 42⟩

/-- A literal is not counted as a use of the function `from_int` it calls: in one of the two orders of the definitions
`fn f() { 5 }` and `fn from_int(x) { … }` the function `f` is compiled first, so that what `f` returns depends on the order in
which the two are written. -/
theorem C61_literals_violated (order : List Nat → List Nat) (horder : ∀ l, (order l).Perm l) :
    ∃ fs : List Function, (fs = [literalUser, ownFromInt] ∨ fs = [ownFromInt, literalUser]) ∧
      ∃ r A c B, compileOrder order fs = some r ∧ r = A ++ c :: B ∧ ∃ i ∈ c, ∃ f, fs[i]? = some f ∧
        ∃ (j : Nat) (g : Function), fs[j]? = some g ∧ g.name ∈ f.code.fns ∧ j ∉ c ∧ j ∉ A.flatten := by
  have e1 : depGraph [literalUser, ownFromInt] = [[], []] := by decide
  have e2 : depGraph [ownFromInt, literalUser] = [[], []] := by decide
  have hwf : Graph.WF ([[], []] : Graph.Gr) := e1 ▸ depGraph_wf _
  obtain ⟨r, hr, hp, hc, -⟩ := Graph.C23_callees_first [[], []] hwf order horder
  have noEdge : ∀ u v, ¬ Graph.Edge ([[], []] : Graph.Gr) u v := by
    rintro u v ⟨l, hl, hv⟩
    match u, hl with
    | 0, hl => simp at hl; subst hl; exact nomatch hv
    | 1, hl => simp at hl; subst hl; exact nomatch hv
  have reach : ∀ u v, Graph.Reach ([[], []] : Graph.Gr) u v → v = u := by
    intro u v h
    induction h with
    | refl => rfl
    | tail _ he _ => exact absurd he (noEdge _ _)
  have single : ∀ c ∈ r, ∀ u ∈ c, ∀ w ∈ c, w = u := fun c hcr u hu w hw =>
    reach u w (((hc c hcr).2 u hu w).mp hw).1
  have hnd : r.flatten.Nodup := hp.nodup_iff.mpr List.nodup_range
  match r, hr, hp, hc, single, hnd with
  | [], _, hp, _, _, _ => simp [List.range_succ] at hp
  | c :: B, hr, hp, hc, single, hnd =>
    obtain ⟨hne, -⟩ := hc c (by simp)
    obtain ⟨i, hi⟩ := List.exists_mem_of_ne_nil _ hne
    have hi2 : i ∈ List.range 2 := hp.mem_iff.mp (by simp [hi])
    have hmem : literalUser.code.fns = [fromInt] := by decide
    have key : ∀ j, j ≠ i → j ∉ c := fun j hj hjc => hj (single c (by simp) i hi j hjc)
    rcases (by simpa [List.range_succ] using hi2 : i = 0 ∨ i = 1) with rfl | rfl
    · exact ⟨[literalUser, ownFromInt], .inl rfl, c :: B, [], c, B, by rw [compileOrder, e1]; exact hr, rfl, 0, hi,
        literalUser, rfl, 1, ownFromInt, rfl, by rw [hmem]; simp [ownFromInt], key 1 (by decide), by simp⟩
    · exact ⟨[ownFromInt, literalUser], .inr rfl, c :: B, [], c, B, by rw [compileOrder, e2]; exact hr, rfl, 1, hi,
        literalUser, rfl, 0, ownFromInt, rfl, by rw [hmem]; simp [ownFromInt], key 0 (by decide), by simp⟩

example : ∀ l : List Nat, (id l).Perm l := fun l => List.Perm.refl l

end Ferlium.Closure
