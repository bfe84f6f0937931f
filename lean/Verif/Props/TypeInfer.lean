import Verif.Proofs.TypeInferGroup
import Verif.Proofs.TypeInferEval

/-!
C74: accepted programs do not go wrong.
-/
namespace Ferlium.TypeInfer

open Unify (Ty Args Head Table)

theorem plain_parts {h : Head} (hh : h = .tuple ∨ h = .function) : ∀ ts : List Ty, (∀ t ∈ ts, t.Sorted sorts) → Unify.Ty.Sorted sorts (.node h (parts ts)) := by
  intro ts hts
  have : ∀ ts : List Ty, (∀ t ∈ ts, t.Sorted sorts) → (parts ts).Sorted sorts := by
    intro ts
    induction ts with
    | nil => intro _; simp [parts, Unify.Args.Sorted]
    | cons t ts ih =>
      intro h
      rw [parts, Unify.Args.Sorted]
      exact ⟨h t (by simp), ih fun t' ht' => h t' (by simp [ht'])⟩
  rw [Unify.Ty.Sorted]
  refine ⟨?_, this ts hts⟩
  rcases hh with rfl | rfl <;> exact parts_names ts

theorem Plain.sorted {t : Ty} (h : Plain t) : t.Sorted sorts := by
  induction h with
  | never => simp [Unify.Ty.Sorted]
  | var => simp [Unify.Ty.Sorted]
  | native => exact (OkTy.native (n := 0)).sorted
  | tuple _ ih => exact plain_parts (.inl rfl) _ ih
  | fn _ _ ih ihr =>
    refine plain_parts (.inr rfl) _ ?_
    intro t ht
    rcases List.mem_append.1 ht with ht | ht
    · exact ih t ht
    · rw [List.mem_singleton.1 ht]; exact ihr

theorem Sig.Closed.ok {s : Sig} (h : s.Closed) : SigOk 0 s := fun t ht => ⟨(h t ht).1.sorted, fun v hv => .inl ((h t ht).2 v hv)⟩

/-- The functions of an accepted program have their inferred types. -/
theorem accepted_fnsOk {p : Program} {pick : Nat → Nat → Bool} {sigs : List Sig} (hc : ∀ s ∈ p.natives, s.Closed)
    (ha : inferGroups pick true p.natives p.groups = some sigs) (hn : NativesOk p sigs) : FnsOk (Inst sigs) p := by
  have h := Typed.groups (Typed.start fun f s hs => (hc s (List.mem_of_getElem? hs)).ok) ha
  rw [List.nil_append] at h
  exact h.fnsOk hn

/-- **C74** (partial: the core language, and what inference accepts if it also refuses functions which do not return as values
and closures with more parameters than expected).  A call of a function of an accepted program with arguments of its types
never goes wrong: it fails in a way the language knows, it has not finished, or it returns a value of its result type. -/
theorem C74_accepted_programs_do_not_go_wrong_partial {p : Program} {pick : Nat → Nat → Bool} {sigs : List Sig}
    (hc : ∀ s ∈ p.natives, s.Closed) (ha : inferGroups pick true p.natives p.groups = some sigs) (hn : NativesOk p sigs)
    {f : Nat} {s : Sig} (hs : sigs[f]? = some s) {σ : Nat → Ty} {vs : List Val} (hv : VTys (Inst sigs) vs (s.args.map (·.subst σ)))
    (fuel : Nat) :
    callFn p fuel f vs = .fails ∨ callFn p fuel f vs = .timeout ∨
      ∃ v, callFn p fuel f vs = .ok v ∧ s.ret ≠ .never ∧ VTy (Inst sigs) v (s.ret.subst σ) := by
  have hok := accepted_fnsOk hc ha hn
  have h1 := (claims hok fuel).call (f := f) (vs := vs) (r := s.ret.subst σ) ⟨s, hs, σ, rfl, .inr rfl⟩ hv
  cases hr : callFn p fuel f vs with
  | ok v =>
    rw [hr] at h1
    refine .inr (.inr ⟨v, rfl, ?_, h1⟩)
    intro hne
    have k0 := (claims hok fuel).call (f := f) (vs := vs) (r := native 0) ⟨s, hs, σ, rfl, .inl hne⟩ hv
    have k1 := (claims hok fuel).call (f := f) (vs := vs) (r := native 1) ⟨s, hs, σ, rfl, .inl hne⟩ hv
    rw [hr] at k0 k1
    exact k0.two k1
  | returns v => rw [hr] at h1; exact h1.elim
  | fails => exact .inl rfl
  | timeout => exact .inr (.inl rfl)
  | wrong => rw [hr] at h1; exact h1.elim

/-- In particular every function has a type, and one without parameters can be run. -/
theorem C74_entry_points_do_not_go_wrong_partial {p : Program} {pick : Nat → Nat → Bool} {sigs : List Sig}
    (hc : ∀ s ∈ p.natives, s.Closed) (ha : inferGroups pick true p.natives p.groups = some sigs) (hn : NativesOk p sigs)
    {f : Nat} {fn : Fn} (hf : p.script f = some fn) (hp : fn.params = []) (fuel : Nat) :
    ∃ s, sigs[f]? = some s ∧ s.args = [] ∧ (callFn p fuel f [] = .fails ∨ callFn p fuel f [] = .timeout ∨
      ∃ v, callFn p fuel f [] = .ok v ∧ VTy (Inst sigs) v s.ret) := by
  have h := Typed.groups (Typed.start fun f s hs => (hc s (List.mem_of_getElem? hs)).ok) ha
  rw [List.nil_append] at h
  simp only [Program.script] at hf
  split at hf
  · cases hf
  · next hlt =>
    have hi := (List.getElem?_eq_some_iff.1 hf).1
    have hfl : f < sigs.length := by rw [h.length]; omega
    have hs := List.getElem?_eq_getElem hfl
    have he : p.natives.length + (f - p.natives.length) = f := by omega
    have hl := (h.typed _ fn hf _ (sigs[f].ret.subst .var) (by rw [he]; exact ⟨_, hs, .var, rfl, .inr rfl⟩)).1
    rw [hp] at hl
    have hargs : sigs[f].args = [] := by
      simp only [List.length_nil, List.length_map] at hl
      exact List.length_eq_zero_iff.1 hl.symm
    refine ⟨_, hs, hargs, ?_⟩
    rcases C74_accepted_programs_do_not_go_wrong_partial hc ha hn hs (σ := .var) (vs := []) (by rw [hargs]; exact .nil) fuel with k | k | ⟨v, k, _, k'⟩
    · exact .inl k
    · exact .inr (.inl k)
    · rw [Unify.Ty.subst_var] at k'
      exact .inr (.inr ⟨v, k, k'⟩)

/-- What is accepted with the additional refusals is accepted without, with the same types. -/
theorem C74_refusals_change_no_types {pick : Nat → Nat → Bool} {sigs sigs' : List Sig} {groups : List (List Fn)}
    (h : inferGroups pick true sigs groups = some sigs') : inferGroups pick false sigs groups = some sigs' := inferGroups_lax h

/-! ## A program -/

/-- `abort` which does not return, the length of a string, and addition. -/
def natives : List Sig := [⟨[], [], .never⟩, ⟨[], [native 2], native 1⟩, ⟨[], [native 1, native 1], native 1⟩]

/-- What they do. -/
def impl : Nat → List Val → NativeRes
  | 0, [] => .fails
  | 1, [.lit 2 n] => .value (.lit 1 n)
  | 2, [.lit 1 a, .lit 1 b] => .value (.lit 1 (a + b))
  | _, _ => .wrong

theorem native_inv {I : Insts} {k : Nat} {v : Val} (h : VTy I v (native k)) : ∃ n, v = .lit k n := by
  generalize ht : native k = t at h
  cases h with
  | lit =>
    simp only [native, Ty.node.injEq, Head.native.injEq, and_true] at ht
    subst ht
    exact ⟨_, rfl⟩
  | tuple => simp [native, tupleTy] at ht
  | fn => simp [native, fnTy] at ht
  | closure => simp [native, fnTy] at ht

theorem natives_closed : ∀ s ∈ natives, s.Closed := by
  intro s hs t ht
  simp only [natives, List.mem_cons, List.not_mem_nil, or_false] at hs
  rcases hs with rfl | rfl | rfl
  · simp only [List.not_mem_nil, false_or] at ht
    subst ht
    exact ⟨.never, fun v hv => by simp [Unify.Ty.contains] at hv⟩
  · have : ∃ k, t = native k := by
      rcases ht with ht | rfl
      · exact ⟨2, by simpa using ht⟩
      · exact ⟨1, rfl⟩
    obtain ⟨k, rfl⟩ := this
    exact ⟨.native, fun v hv => by simp [native, Unify.Ty.contains, Unify.Args.contains] at hv⟩
  · have : ∃ k, t = native k := by
      rcases ht with ht | rfl
      · exact ⟨1, by simpa using ht⟩
      · exact ⟨1, rfl⟩
    obtain ⟨k, rfl⟩ := this
    exact ⟨.native, fun v hv => by simp [native, Unify.Ty.contains, Unify.Args.contains] at hv⟩

theorem natives_ok (groups : List (List Fn)) (sigs : List Sig) : NativesOk ⟨natives, impl, groups⟩ sigs := by
  intro f s hs σ vs hv
  match f with
  | 0 =>
    cases hs
    cases hv
    exact .inl rfl
  | 1 =>
    cases hs
    simp only [List.map_cons, List.map_nil, native_subst] at hv
    cases hv with
    | cons h1 h2 =>
      cases h2
      obtain ⟨n, rfl⟩ := native_inv h1
      exact .inr ⟨_, rfl, by simp [native], by rw [native_subst]; exact .lit⟩
  | 2 =>
    cases hs
    simp only [List.map_cons, List.map_nil, native_subst] at hv
    cases hv with
    | cons h1 h2 =>
      cases h2 with
      | cons h2 h3 =>
        cases h3
        obtain ⟨n, rfl⟩ := native_inv h1
        obtain ⟨m, rfl⟩ := native_inv h2
        exact .inr ⟨_, rfl, by simp [native], by rw [native_subst]; exact .lit⟩
  | n + 3 => simp [natives] at hs

/-- `fn twice(f, x) { f(f(x)) }`, `fn stop(x) { if x { abort() } else { stop(x) } }` and
`fn main() { let mut g = |x| add(x, 1); g = |x| x; (twice(g, 5), if true { 1 } else { stop(false) }) }`. -/
def groups : List (List Fn) := [
  [⟨[0, 1], .app (.local 0) (.cons (.app (.local 0) (.cons (.local 1) .nil)) .nil)⟩],
  [⟨[0], .ite (.local 0) (.call 0 .nil) (.call 4 (.cons (.local 0) .nil))⟩],
  [⟨[], .block (.bind 0 true (.abs [1] (.call 2 (.cons (.local 1) (.cons (.lit 1 1) .nil))))
    (.expr (.assign 0 (.abs [1] (.local 1)))
      (.expr (.tuple (.cons (.call 3 (.cons (.local 0) (.cons (.lit 1 5) .nil)))
        (.cons (.ite (.lit 0 1) (.lit 1 1) (.call 4 (.cons (.lit 0 0) .nil))) .nil))) .nil)))⟩]]

/-- Their types: `(('a) -> 'a, 'a) -> 'a`, `(bool) -> never` and `() -> (int, int)`. -/
def groupSigs : List Sig := natives ++ [⟨[2], [fnTy [.var 2] (.var 2), .var 2], .var 2⟩, ⟨[], [native 0], .never⟩,
  ⟨[], [], tupleTy [native 1, native 1]⟩]

theorem groups_accepted : inferGroups (fun _ _ => true) true natives groups = some groupSigs :=
  inferGroupsIn_eq (k := 20) (by decide +kernel)

/-- What a run comes to, to compare runs. -/
def Res.lits : Res Val → Option (List Nat)
  | .ok (.tuple [.lit 1 a, .lit 1 b]) => some [a, b]
  | _ => none

/-- The run has gone wrong. -/
def Res.isWrong : Res α → Bool
  | .wrong => true
  | _ => false

theorem Res.isWrong_iff {r : Res α} : r.isWrong = true ↔ r = .wrong := by cases r <;> simp [Res.isWrong]

/-- The program is accepted, so it does not go wrong; it returns `(5, 1)`. -/
example (fuel : Nat) : ∃ s, groupSigs[5]? = some s ∧ s.args = [] ∧ (callFn ⟨natives, impl, groups⟩ fuel 5 [] = .fails ∨
    callFn ⟨natives, impl, groups⟩ fuel 5 [] = .timeout ∨
    ∃ v, callFn ⟨natives, impl, groups⟩ fuel 5 [] = .ok v ∧ VTy (Inst groupSigs) v s.ret) :=
  C74_entry_points_do_not_go_wrong_partial natives_closed groups_accepted (natives_ok _ _) (fn := groups[2][0]) rfl rfl fuel

example : (callFn ⟨natives, impl, groups⟩ 30 5 []).lits = some [5, 1] := by decide +kernel

/-- `stop` does not return. -/
example (fuel : Nat) : ¬ ∃ v, callFn ⟨natives, impl, groups⟩ fuel 4 [.lit 0 1] = .ok v := by
  rintro ⟨v, hv⟩
  rcases C74_accepted_programs_do_not_go_wrong_partial (p := ⟨natives, impl, groups⟩) natives_closed groups_accepted (natives_ok _ _)
    (f := 4) (s := ⟨[], [native 0], .never⟩) rfl (σ := .var) (vs := [.lit 0 1]) (.cons .lit .nil) fuel with h | h | ⟨w, _, h, _⟩
  · rw [hv] at h; cases h
  · rw [hv] at h; cases h
  · exact h rfl

/-! ## What is accepted although it goes wrong -/

/-- `fn main() { len((if true { || 5 } else { abort })()) }`. -/
def lostType : List (List Fn) :=
  [[⟨[], .call 1 (.cons (.app (.ite (.lit 0 1) (.abs [] (.lit 1 5)) (.fn 0)) .nil) .nil)⟩]]

/-- Its equations. -/
def lostBodies : List Bool × Nat × List (Ty × Ty) := ([false], 4, [(fnTy [] .never, .var 1), (fnTy [] .never, .var 1),
  (native 1, .var 2), (fnTy [] (.var 2), .var 1), (fnTy [] (.var 2), .var 1), (.var 1, fnTy [] (.var 3)), (.var 3, native 2),
  (native 1, .var 0)])

/-- The solved equations. -/
def lostTable : Table := [some (native 1), some (fnTy [] .never), some (native 1), some (native 2)]

/-- **C74 fails** for functions which do not return as values: such a function and a function which returns a number are
accepted in the two branches of an `if`, and what the call returns may then be used as a string. -/
theorem C74_diverging_function_values_violated (pick : Nat → Nat → Bool) :
    (∃ sigs, inferGroups pick false natives lostType = some sigs) ∧ (∀ sigs, NativesOk ⟨natives, impl, lostType⟩ sigs) ∧
      callFn ⟨natives, impl, lostType⟩ 20 3 [] = .wrong := by
  refine ⟨⟨natives ++ [⟨[], [], native 1⟩], ?_⟩, fun sigs => natives_ok _ _, Res.isWrong_iff.1 (by decide +kernel)⟩
  have hb : bodies ⟨false, natives ++ (headers 0 lostType[0]).1⟩ (headers 0 lostType[0]).2 ((headers 0 lostType[0]).1.zip lostType[0]) =
      some lostBodies := by decide +kernel
  have hs : solvedIn pick 12 4 lostBodies.2.2 = some lostTable := by rfl
  have hf : finishIn 12 lostTable 3 (lostBodies.1.zip ((headers 0 lostType[0]).1.zip lostType[0])) = some [⟨[], [], native 1⟩] := by
    decide +kernel
  refine inferGroupsIn_eq (k := 12) ?_
  show inferGroupIn pick 12 false natives lostType[0] >>= _ = _
  rw [show inferGroupIn pick 12 false natives lostType[0] = some (natives ++ [⟨[], [], native 1⟩]) by
    simp only [inferGroupIn, hb, Option.bind_eq_bind, Option.bind_some]
    rw [show lostBodies.2.1 = 4 from rfl, hs, Option.bind_some, show natives.length = 3 from rfl, hf, Option.bind_some]]
  rfl

/-- The function `run : (() -> int) -> int`. -/
def runNatives : List Sig := [⟨[], [fnTy [] (native 1)], native 1⟩]

/-- `fn main() { run(|x| 5) }`. -/
def surplus : List (List Fn) := [[⟨[], .call 0 (.cons (.abs [0] (.lit 1 5)) .nil)⟩]]

/-- **C74 fails** for closures with more parameters than expected: where a function without parameters is expected, a closure
with a parameter is accepted. -/
theorem C74_surplus_parameters_violated (pick : Nat → Nat → Bool) :
    ∃ sigs, inferGroups pick false runNatives surplus = some sigs ∧
      ¬ ∃ ρ Γ, HasTy (Inst sigs) ρ Γ (.abs [0] (.lit 1 5)) (fnTy [] (native 1)) := by
  refine ⟨runNatives ++ [⟨[], [], native 1⟩], inferGroupsIn_eq (k := 12) (by rfl), ?_⟩
  rintro ⟨ρ, Γ, h⟩
  generalize ht : fnTy [] (native 1) = t at h
  cases h with
  | abs hl _ =>
    obtain ⟨h1, _⟩ := fnTy_inj ht
    subst h1
    simp at hl

/-- Both are refused with the additional refusals. -/
example : infer ⟨true, natives⟩ (.var 0) [] none 1 (.fn 0) = none := by decide +kernel

end Ferlium.TypeInfer
