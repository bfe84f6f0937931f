import Verif.Proofs.ValueSem

/-!
# C85: names stand for values

The compiler passes addresses of variables where a user thinks of values.  The theorems compare the
execution of the compiled program (`run`) with the execution where every name has a value of its own
(`eval`).
-/

namespace Ferlium.ValueSem

/-! ### Immutable variables -/

/-- The immutable variables have the same values. -/
structure Keeps (Γ : List Bool) (s s' : List (Val Unit)) : Prop where
  len : s'.length = s.length
  keep : ∀ x : Nat, Γ[x]? = some false → s'[x]? = s[x]?

theorem Keeps.refl {Γ : List Bool} {s} : Keeps Γ s s := ⟨rfl, fun _ _ => rfl⟩

theorem Keeps.trans {Γ : List Bool} {s s₁ s₂} (h₁ : Keeps Γ s s₁) (h₂ : Keeps Γ s₁ s₂) :
    Keeps Γ s s₂ := ⟨h₂.len.trans h₁.len, fun x hx => (h₂.keep x hx).trans (h₁.keep x hx)⟩

theorem Keeps.modify {Γ : List Bool} {s : List (Val Unit)} {x : Nat} (hx : Γ[x]? = some true)
    (g : Val Unit → Val Unit) : Keeps Γ s (s.modify x g) := by
  refine ⟨List.length_modify .., fun y hy => ?_⟩
  have hne : x ≠ y := by
    rintro rfl
    rw [hx] at hy
    cases hy
  simp [List.getElem?_modify, hne]

theorem bind_ok {β γ : Type} {x : Except Err β} {f : β → Except Err γ} {c : γ}
    (h : x >>= f = .ok c) : ∃ a, x = .ok a ∧ f a = .ok c := by
  cases x with
  | error e => cases h
  | ok a => exact ⟨a, rfl, h⟩

theorem leave_keeps {Γ : List Bool} : ∀ {as : List VArg} {ts s : List (Val Unit)},
    (∀ x q, VArg.ref x q ∈ as → Γ[x]? = some true) → Keeps Γ s (leave as ts s)
  | [], _, _, _ => Keeps.refl
  | .val _ :: as, [], _, _ => Keeps.refl
  | .ref _ _ :: as, [], _, _ => Keeps.refl
  | .val _ :: as, t :: ts, s, h => by
    rw [leave]
    exact leave_keeps (fun x q hx => h x q (List.mem_cons_of_mem _ hx))
  | .ref x q :: as, t :: ts, s, h => by
    rw [leave]
    exact (Keeps.modify (h x q List.mem_cons_self) _).trans
      (leave_keeps (fun x q hx => h x q (List.mem_cons_of_mem _ hx)))

/-- The statement for a bound on the number of steps. -/
structure Const (P : List Fn) (n : Nat) : Prop where
  place : ∀ Γ s p r, Place.check P Γ p = true → s.length = Γ.length → evalPlace P n s p = .ok r →
    r.1.1 = p.root ∧ Keeps Γ s r.2
  exp : ∀ Γ s e r, Exp.check P Γ e = true → s.length = Γ.length → eval P n s e = .ok r →
    Keeps Γ s r.2
  args : ∀ Γ s as r, Args.check P Γ as = true → s.length = Γ.length → evalArgs P n s as = .ok r →
    Keeps Γ s r.2 ∧ ∀ x q, VArg.ref x q ∈ r.1 → Γ[x]? = some true

theorem const_place {P : List Fn} {n : Nat} (ih : Const P n) (Γ s) (p : Place) (r)
    (hc : p.check P Γ = true) (hl : s.length = Γ.length) (h : evalPlace P (n + 1) s p = .ok r) :
    r.1.1 = p.root ∧ Keeps Γ s r.2 := by
  cases p with
  | var x =>
    cases h
    exact ⟨rfl, Keeps.refl⟩
  | proj p i =>
    simp only [Place.check] at hc
    simp only [evalPlace] at h
    obtain ⟨⟨⟨x, q⟩, s₁⟩, h₁, h⟩ := bind_ok h
    obtain ⟨h1, h2⟩ := ih.place Γ s p _ hc hl h₁
    cases h
    exact ⟨h1, h2⟩
  | index p e =>
    simp only [Place.check, Bool.and_eq_true] at hc
    simp only [evalPlace] at h
    obtain ⟨⟨⟨x, q⟩, s₁⟩, h₁, h⟩ := bind_ok h
    obtain ⟨h1, h2⟩ := ih.place Γ s p _ hc.1 hl h₁
    obtain ⟨⟨k, s₂⟩, h₂, h⟩ := bind_ok h
    have h3 := ih.exp Γ s₁ e _ hc.2 (h2.len.trans hl) h₂
    simp only at h
    split at h
    · split at h
      · cases h
        exact ⟨h1, h2.trans h3⟩
      · cases h
    · cases h

theorem const_exp {P : List Fn} {n : Nat} (ih : Const P n) (Γ s) (e : Exp) (r)
    (hc : e.check P Γ = true) (hl : s.length = Γ.length) (h : eval P (n + 1) s e = .ok r) :
    Keeps Γ s r.2 := by
  cases e with
  | int k => cases h; exact Keeps.refl
  | empty a => cases a <;> cases h <;> exact Keeps.refl
  | load p =>
    simp only [Exp.check] at hc
    simp only [eval] at h
    obtain ⟨⟨⟨x, q⟩, s₁⟩, h₁, h⟩ := bind_ok h
    obtain ⟨h1, h2⟩ := ih.place Γ s p _ hc hl h₁
    simp only at h
    split at h
    · cases h; exact h2
    · cases h
  | snoc c e =>
    simp only [Exp.check, Bool.and_eq_true] at hc
    simp only [eval] at h
    obtain ⟨⟨v, s₁⟩, h₁, h⟩ := bind_ok h
    have h1 := ih.exp Γ s c _ hc.1 hl h₁
    obtain ⟨⟨w, s₂⟩, h₂, h⟩ := bind_ok h
    have h2 := ih.exp Γ s₁ e _ hc.2 (h1.len.trans hl) h₂
    simp only at h
    split at h
    · cases h; exact h1.trans h2
    · cases h
  | assign p e =>
    simp only [Exp.check, Bool.and_eq_true, beq_iff_eq] at hc
    simp only [eval] at h
    obtain ⟨⟨⟨x, q⟩, s₁⟩, h₁, h⟩ := bind_ok h
    obtain ⟨h1, h2⟩ := ih.place Γ s p _ hc.1.1 hl h₁
    obtain ⟨⟨w, s₂⟩, h₂, h⟩ := bind_ok h
    have h3 := ih.exp Γ s₁ e _ hc.2 (h2.len.trans hl) h₂
    simp only at h h1
    split at h
    · cases h
      exact (h2.trans h3).trans (Keeps.modify (by rw [h1]; exact hc.1.2) _)
    · cases h
  | seq a b =>
    simp only [Exp.check, Bool.and_eq_true] at hc
    simp only [eval] at h
    obtain ⟨⟨v, s₁⟩, h₁, h⟩ := bind_ok h
    have h1 := ih.exp Γ s a _ hc.1 hl h₁
    exact h1.trans (ih.exp Γ s₁ b _ hc.2 (h1.len.trans hl) h)
  | ite c a b =>
    simp only [Exp.check, Bool.and_eq_true] at hc
    simp only [eval] at h
    obtain ⟨⟨v, s₁⟩, h₁, h⟩ := bind_ok h
    have h1 := ih.exp Γ s c _ hc.1.1 hl h₁
    simp only at h
    split at h
    · split at h
      · exact h1.trans (ih.exp Γ s₁ b _ hc.2 (h1.len.trans hl) h)
      · exact h1.trans (ih.exp Γ s₁ a _ hc.1.2 (h1.len.trans hl) h)
    · cases h
  | bind isMut copy e b =>
    simp only [Exp.check, Bool.and_eq_true] at hc
    simp only [eval] at h
    obtain ⟨⟨v, s₁⟩, h₁, h⟩ := bind_ok h
    have h1 := ih.exp Γ s e _ hc.1 hl h₁
    obtain ⟨⟨w, s₂⟩, h₂, h⟩ := bind_ok h
    have h2 := ih.exp (Γ ++ [isMut]) (s₁ ++ [v]) b _ hc.2 (by simp [h1.len, hl]) h₂
    cases h
    refine h1.trans ⟨?_, fun x hx => ?_⟩
    · have := h2.len
      simp only [List.length_append, List.length_cons, List.length_nil] at this
      simp [this]
    · have hxl := (List.getElem?_eq_some_iff.mp hx).1
      have hlen : s₁.length = Γ.length := h1.len.trans hl
      have h3 := h2.keep x (by rw [List.getElem?_append_left hxl]; exact hx)
      have hl2 := h2.len
      simp only [List.length_append, List.length_cons, List.length_nil] at hl2
      rw [List.getElem?_append_left (by omega)] at h3
      rw [List.getElem?_dropLast, if_pos (by simp only; omega)]
      exact h3
  | call f args =>
    simp only [Exp.check, Bool.and_eq_true] at hc
    simp only [eval] at h
    obtain ⟨⟨as, s₁⟩, h₁, h⟩ := bind_ok h
    obtain ⟨h1, h2⟩ := ih.args Γ s args _ hc.2 hl h₁
    simp only at h
    split at h
    · split at h
      · obtain ⟨⟨v, ts⟩, h₃, h⟩ := bind_ok h
        cases h
        exact h1.trans (leave_keeps h2)
      · cases h
    · cases h

theorem const_args {P : List Fn} {n : Nat} (ih : Const P n) (Γ s) (as : Args) (r)
    (hc : as.check P Γ = true) (hl : s.length = Γ.length) (h : evalArgs P (n + 1) s as = .ok r) :
    Keeps Γ s r.2 ∧ ∀ x q, VArg.ref x q ∈ r.1 → Γ[x]? = some true := by
  cases as with
  | nil => cases h; exact ⟨Keeps.refl, by simp⟩
  | cons isMut e rest =>
    by_cases hp : ∃ p, e = .load p
    · obtain ⟨p, rfl⟩ := hp
      cases isMut with
      | true =>
        simp only [Args.check, Bool.and_eq_true, beq_iff_eq] at hc
        simp only [evalArgs] at h
        obtain ⟨⟨⟨x, q⟩, s₁⟩, h₁, h⟩ := bind_ok h
        obtain ⟨h1, h2⟩ := ih.place Γ s p _ hc.1.1 hl h₁
        obtain ⟨⟨vs, s₂⟩, h₂, h⟩ := bind_ok h
        obtain ⟨h3, h4⟩ := ih.args Γ s₁ rest _ hc.2 (h2.len.trans hl) h₂
        cases h
        refine ⟨h2.trans h3, fun y q' hy => ?_⟩
        rcases List.mem_cons.mp hy with hy | hy
        · cases hy
          simp only at h1
          rw [h1]
          exact hc.1.2
        · exact h4 y q' hy
      | false =>
        simp only [Args.check, Exp.check, Bool.and_eq_true] at hc
        simp only [evalArgs] at h
        obtain ⟨⟨⟨x, q⟩, s₁⟩, h₁, h⟩ := bind_ok h
        obtain ⟨h1, h2⟩ := ih.place Γ s p _ hc.1 hl h₁
        simp only at h
        split at h
        · obtain ⟨⟨vs, s₂⟩, h₂, h⟩ := bind_ok h
          obtain ⟨h3, h4⟩ := ih.args Γ s₁ rest _ hc.2 (h2.len.trans hl) h₂
          cases h
          refine ⟨h2.trans h3, fun y q' hy => ?_⟩
          rcases List.mem_cons.mp hy with hy | hy
          · cases hy
          · exact h4 y q' hy
        · cases h
    · have hne : ∀ p, e ≠ .load p := fun p h' => hp ⟨p, h'⟩
      have e2 : evalArgs P (n + 1) s (.cons isMut e rest) =
          (do let (v, s) ← eval P n s e
              let (as, s) ← evalArgs P n s rest
              .ok (.val v :: as, s)) := by
        cases isMut <;> cases e <;> first | exact absurd rfl (hne _) | simp only [evalArgs]
      have hc' : e.check P Γ = true ∧ rest.check P Γ = true := by
        cases isMut with
        | true => cases e <;> first | exact absurd rfl (hne _) | simp [Args.check] at hc
        | false => simpa [Args.check] using hc
      rw [e2] at h
      obtain ⟨⟨v, s₁⟩, h₁, h⟩ := bind_ok h
      have h2 := ih.exp Γ s e _ hc'.1 hl h₁
      obtain ⟨⟨vs, s₂⟩, h₂, h⟩ := bind_ok h
      obtain ⟨h3, h4⟩ := ih.args Γ s₁ rest _ hc'.2 (h2.len.trans hl) h₂
      cases h
      refine ⟨h2.trans h3, fun y q' hy => ?_⟩
      rcases List.mem_cons.mp hy with hy | hy
      · cases hy
      · exact h4 y q' hy

theorem const (P : List Fn) : ∀ n, Const P n
  | 0 => ⟨nofun, nofun, nofun⟩
  | n + 1 => ⟨const_place (const P n), const_exp (const P n), const_args (const P n)⟩

/-- The memory before the program starts. -/
def Mem.start : Mem := ⟨fun _ => .int 0, 0⟩

/-- **C85** (partial: only for programs which do not overwrite an array while the address of one of
its elements is in use; the compiler does not check this, see the counterexamples below).

An accepted program gives the same result, or the same error, or runs as long, as the program in
which every `let` copies its value, every argument is copied when it is evaluated, and the final
value of a `&mut` parameter is copied back to its place when the call is over.  In particular no
place is used after it is gone. -/
theorem C85_values_partial {P : List Fn} (hP : accepted P = true) (hS : stableProgram P = true)
    {e : Exp} (he : e.check P [] = true) (hs : e.stable = true) (n : Nat) :
    (run P n [] Mem.start e).map Prod.fst = (eval P n [] e).map Prod.fst := by
  have hI : Inv [] Mem.start [] := ⟨rfl, fun x b hb => by simp at hb, List.Pairwise.nil⟩
  have h := (sim hP hS n).exp [] Mem.start [] e hI he hs
  cases hr : run P n [] Mem.start e with
  | error a => cases hv : eval P n [] e with
    | error b => rw [hr, hv] at h; exact congrArg _ h
    | ok b => rw [hr, hv] at h; exact h.elim
  | ok a => cases hv : eval P n [] e with
    | error b => rw [hr, hv] at h; exact h.elim
    | ok b => rw [hr, hv] at h; exact congrArg _ h.1

/-! ### Examples -/

/-- A variable. -/
abbrev v (x : Nat) : Exp := .load (.var x)

/-- `[a, b]`. -/
abbrev arr2 (a b : Exp) : Exp := .snoc (.snoc (.empty true) a) b

/-- `(a, b)`. -/
abbrev pair (a b : Exp) : Exp := .snoc (.snoc (.empty false) a) b

/-- Functions:
* 0: `fn swap(a: &mut, b: &mut) { let t = a; a = b; b = t }`
* 1: `fn both(x, y: &mut, z) { y = 7; (x, z) }`
* 2: `fn rec(n, a: &mut) { if n != 0 { a = [n, n]; rec(0, a) } else { a } }` -/
def samples : List Fn := [
  ⟨[true, true], .bind false false (v 0) (.seq (.assign (.var 0) (v 1)) (.assign (.var 1) (v 2)))⟩,
  ⟨[false, true, false], .seq (.assign (.var 1) (.int 7)) (pair (v 0) (v 2))⟩,
  ⟨[false, true], .ite (v 0)
    (.seq (.assign (.var 1) (arr2 (v 0) (v 0)))
      (.call 2 (.cons false (.int 0) (.cons true (v 1) .nil)))) (v 1)⟩]

/-- A program which swaps two elements, shares a variable, passes a variable together with a mutable
reference to one of its elements, writes it in a later argument, and recurs:
```
let mut a = [1, 2];
swap(a[0], a[1]);
let b = a;
let c = b;
let d = both(a, a[0], { a[1] = 9; c });
rec(1, a);
(a, (c, d))
``` -/
def sample : Exp :=
  .bind true false (arr2 (.int 1) (.int 2))
    (.seq (.call 0 (.cons true (.load (.index (.var 0) (.int 0)))
        (.cons true (.load (.index (.var 0) (.int 1))) .nil)))
      (.bind false false (v 0)
        (.bind false false (v 1)
          (.bind false false
            (.call 1 (.cons false (v 0) (.cons true (.load (.index (.var 0) (.int 0)))
              (.cons false (.seq (.assign (.index (.var 0) (.int 1)) (.int 9)) (v 2)) .nil))))
            (.seq (.call 2 (.cons false (.int 1) (.cons true (v 0) .nil)))
              (pair (v 0) (pair (v 2) (v 3))))))))

example : accepted samples = true ∧ stableProgram samples = true ∧ sample.check samples [] = true ∧
    sample.stable = true := by decide

/-- The results, where every name has a value of its own: `([1, 1], ([2, 1], ([2, 1], [2, 1])))`. -/
example : (eval samples 20 [] sample).map Prod.fst = .ok
    (.tup [.arr () [.int 1, .int 1], .tup [.arr () [.int 2, .int 1],
      .tup [.arr () [.int 2, .int 1], .arr () [.int 2, .int 1]]]]) := rfl

/-- **C85**: an immutable variable has the same value at all times: an accepted expression leaves the
variables of its scope which are not `mut` as they are, whatever functions it calls.  Together with
the theorem above this is what the compiled program shows. -/
theorem C85_immutable {P : List Fn} {Γ : List Bool} {s s' : List (Val Unit)} {e : Exp}
    {w : Val Unit} {n x : Nat} (he : e.check P Γ = true) (hs : s.length = Γ.length)
    (hx : Γ[x]? = some false) (h : eval P n s e = .ok (w, s')) : s'[x]? = s[x]? :=
  ((const P n).exp Γ s e _ he hs h).keep x hx

/-- One variable of each kind: `let y = x` with the immutable `x` and a call which writes the mutable
one. -/
example : ∃ s', eval samples 20 [.int 4, .arr () [.int 1, .int 2]]
      (.call 2 (.cons false (v 0) (.cons true (v 1) .nil))) =
        .ok (.arr () [.int 4, .int 4], s') ∧
    (Exp.call 2 (.cons false (v 0) (.cons true (v 1) .nil))).check samples [false, true] = true ∧
    s'[0]? = some (.int 4) ∧ s'[1]? = some (.arr () [.int 4, .int 4]) :=
  ⟨[.int 4, .arr () [.int 4, .int 4]], rfl, by decide, rfl, rfl⟩

/-! ### Elements of arrays which are overwritten -/

/-- `fn set(x: &mut, y) { x = y }`. -/
def setter : List Fn := [⟨[true, false], .assign (.var 0) (v 1)⟩]

/-- `let mut a = [1, 2]; a[0] = { a = [3, 4]; 5 }; a`.  The address of `a[0]` is computed first, then
the block frees the buffer with the element, then the element is dropped and written. -/
def assignElement : Exp :=
  .bind true false (arr2 (.int 1) (.int 2))
    (.seq (.assign (.index (.var 0) (.int 0))
      (.seq (.assign (.var 0) (arr2 (.int 3) (.int 4))) (.int 5))) (v 0))

/-- `let mut a = [1, 2]; set(a[0], { a = [3, 4]; 5 }); a`. -/
def passElement : Exp :=
  .bind true false (arr2 (.int 1) (.int 2))
    (.seq (.call 0 (.cons true (.load (.index (.var 0) (.int 0)))
      (.cons false (.seq (.assign (.var 0) (arr2 (.int 3) (.int 4))) (.int 5)) .nil))) (v 0))

/-- `let mut a = [[1, 2], [1, 2]]; a[0][{ a = [[3, 4], [3, 4]]; 0 }]`. -/
def indexElement : Exp :=
  .bind true false (arr2 (arr2 (.int 1) (.int 2)) (arr2 (.int 1) (.int 2)))
    (.load (.index (.index (.var 0) (.int 0))
      (.seq (.assign (.var 0) (arr2 (arr2 (.int 3) (.int 4)) (arr2 (.int 3) (.int 4)))) (.int 0))))

/-- The compiler accepts an assignment to an element whose value replaces the array; the compiled
program then writes to the freed buffer. -/
theorem C85_assign_element_violated :
    accepted setter = true ∧ assignElement.check setter [] = true ∧
    (eval setter 20 [] assignElement).map Prod.fst = .ok (.arr () [.int 5, .int 4]) ∧
    (run setter 20 [] Mem.start assignElement).map Prod.fst = .error .noPlace :=
  ⟨by decide, by decide, rfl, rfl⟩

/-- The compiler accepts a call where an element is passed as `&mut` and a later argument replaces
the array; the called function gets the address of an element which is gone. -/
theorem C85_pass_element_violated :
    accepted setter = true ∧ passElement.check setter [] = true ∧
    (eval setter 20 [] passElement).map Prod.fst = .ok (.arr () [.int 5, .int 4]) ∧
    (run setter 20 [] Mem.start passElement).map Prod.fst = .error .noPlace :=
  ⟨by decide, by decide, rfl, rfl⟩

/-- The same when an element of an element is read and the index replaces the outer array. -/
theorem C85_index_element_violated :
    accepted setter = true ∧ indexElement.check setter [] = true ∧
    (eval setter 20 [] indexElement).map Prod.fst = .ok (.int 3) ∧
    (run setter 20 [] Mem.start indexElement).map Prod.fst = .error .noPlace :=
  ⟨by decide, by decide, rfl, rfl⟩

end Ferlium.ValueSem
