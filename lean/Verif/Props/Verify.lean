import Verif.Proofs.VerifyLoop
import Verif.Proofs.VerifyFlow

/-!
C82: what the verification of storage ownership accepts neither uses storage that is not there nor loses a value.
C83: the verification of failures in flight is exact.
-/
namespace Ferlium.Verify

/-- **C82, partial.** In a function that is accepted, whatever branches are taken and whichever operations fail, execution never
leaves the code, no operation reads storage that is not allocated and initialised, copies what has to be dropped, writes to
storage that is not allocated, restores an unknown marker, opens a projection twice or ends one that is not open; no value
that has to be dropped is ever lost by overwriting, clearing or reclaiming its storage; and whenever the function returns or
passes a failure on, no projection is open, its owned parameters are empty, and nothing that has to be dropped is left, except
in storage of its own with an opaque part.  Partial: executions that do what the verification takes on trust (`Odd`) are
excluded. -/
theorem C82_owned_partial (F : Func) (hv : verified F) (i : Nat) (m : Mem) (hr : Run F i m) :
    (∃ n, F.nodes[i]? = some n) ∧ (∀ o, F.opAt i o → ¬ Odd F o m → ¬ Bad F o m) ∧ (∀ t, m.tok t ≠ .lost) ∧
    ((F.nodes[i]? = some .ret ∨ F.nodes[i]? = some .propagate) → Clean F m) :=
  run_safe hv hr

/-- If no storage of the function has an opaque part, every value is accounted for when it ends. -/
theorem C82_all_partial (F : Func) (hv : verified F) (hx : ∀ R, (R, false) ∈ F.roots → ¬ R.Opaque) (i : Nat) (m : Mem)
    (hr : Run F i m) (hn : F.nodes[i]? = some .ret ∨ F.nodes[i]? = some .propagate) (t : Nat) :
    m.tok t = .unborn ∨ m.tok t = .gone := by
  rcases ((run_safe hv hr).2.2.2 hn).tok t with h | h | ⟨r, q, R, _, h, ho⟩
  · exact Or.inl h
  · exact Or.inr h
  · exact absurd ho (hx R (List.mem_of_getElem? h))

/-- **C83.** The check of failures accepts exactly the functions in which every execution stays in the code, returns and yields
with no failure in flight, passes a failure on with exactly one, gives up cleaning with exactly two, never goes on after two,
and in which the number of failures in flight is the same whenever a node is reached. -/
theorem C83_failures (F : Func) : flowVerified F ↔
    (∀ i n, Flow F i n → Fine F i n) ∧ ∀ i n n', Flow F i n → Flow F i n' → n = n' :=
  ⟨flow_sound, fun h => flow_complete h.1 h.2⟩

/-! ### Examples -/

/-- A native type that has to be dropped. -/
def exT : Ty := .mk 0 false .other .nil

/-- A pair of those. -/
def exPair : Ty := .mk 1 false .product (.cons exT (.cons exT .nil))

/-- `f(pair) { let x = g(pair.0); drop(x); drop(pair.1) }`, with the cleanup after a failure of `g`. -/
def exF : Func where
  roots := [(exPair, true), (exT, false)]
  nodes := [
    .op (.save 0),
    .op (.alloca 1),
    .invoke (.call [.root 0 [0]] (.root 1 [])) 3 7,
    .op (.drop (.root 1 [])),
    .op (.drop (.root 0 [1])),
    .op (.restore 0),
    .ret,
    .op (.drop (.root 0 [1])),
    .op (.restore 0),
    .propagate]

theorem verified_of {F : Func} (k : Nat)
    (h : (loop F k ((List.replicate F.nodes.length []).set 0 [initial F]) [(0, 0)]).isSome = true) : verified F := by
  obtain ⟨r, hr⟩ := Option.isSome_iff_exists.1 h
  exact ⟨k, r, hr⟩

theorem flowVerified_of {F : Func} (k : Nat)
    (h : (flowLoop F k ((List.replicate F.nodes.length none).set 0 (some 0)) [0]).isSome = true) : flowVerified F := by
  obtain ⟨r, hr⟩ := Option.isSome_iff_exists.1 h
  exact ⟨k, r, hr⟩

/-- The memory after writing something new to a place. -/
def newAt (r : Nat) (p : List Nat) (t : Nat) (m : Mem) : Mem :=
  { (m.send r p .lost).fill r p true with tok := fun t' => if t' = t then .at r p else (m.send r p .lost).tok t' }

theorem put_new {F : Func} {r : Nat} {p : List Nat} {R x : Ty} {t : Nat} {m : Mem} (hR : F.ty r = some R)
    (hx : Ty.at p R = some x) (hroom : Ty.room p R = true) (ht : m.tok t = .unborn) : Put F true (.root r p) m (newAt r p t m) := by
  refine ⟨(m.send r p .lost).fill r p true, _, ⟨R, hR, Or.inl ⟨⟨R, x, hR, hx⟩, rfl⟩⟩, ⟨R, hR, ?_⟩, nofun, rfl⟩
  intro t'
  by_cases h : t' = t
  · subst h
    refine Or.inr ⟨?_, [], by simp, by simpa using hroom⟩
    simp only [Mem.fill, Mem.send]
    rw [if_neg, ht]
    rw [ht]
    rintro ⟨u, hu⟩
    cases hu
  · exact Or.inl (if_neg h)

theorem exF_verified : verified exF := verified_of 20 (by decide +kernel)

example : flowVerified exF := flowVerified_of 20 (by decide +kernel)

/-- The memory at the entry: two values in the pair. -/
def exM0 : Mem where
  full := fun _ _ => true
  tok := fun t => if t = 0 then .at 0 [0] else if t = 1 then .at 0 [1] else .unborn
  stack := [0]
  marks := fun _ => none
  opens := fun _ => false

theorem exM0_start : Start exF exM0 := by
  refine ⟨?_, fun _ _ _ _ => rfl, ?_, fun _ => rfl, fun _ => rfl⟩
  · intro r
    match r with
    | 0 => simp [exM0, exF]
    | 1 => simp [exM0, exF]
    | r + 2 => simp [exM0, exF]
  · intro t
    match t with
    | 0 => exact Or.inr ⟨0, [0], exPair, rfl, rfl, by decide +kernel⟩
    | 1 => exact Or.inr ⟨0, [1], exPair, rfl, rfl, by decide +kernel⟩
    | t + 2 => exact Or.inl (by simp [exM0])

/-- An execution to the point after the call: the first value is given away, a new one is in `x`. -/
example : ∃ m, Run exF 3 m ∧ m.tok 0 = .gone ∧ m.tok 1 = .at 0 [1] ∧ m.tok 2 = .at 1 [] := by
  have r0 : Run exF 0 exM0 := .start exM0_start
  have r1 := Run.step r0 (by
    rintro o (h | ⟨n, e, h⟩)
    · cases h; exact fun h => h
    · cases h) (Step.op rfl rfl)
  have r2 := Run.step r1 (by
    rintro o (h | ⟨n, e, h⟩)
    · cases h
      show ¬ (1 ∈ [0])
      decide
    · cases h) (Step.op rfl rfl)
  have ht : Tracked exF 1 [] := ⟨exT, exT, rfl, rfl⟩
  have r3 := Run.step r2 (by
    rintro o (h | ⟨n, e, h⟩)
    · cases h
    · cases h
      exact fun h => h.1 ht) (Step.normal rfl (put_new (t := 2) (x := exT) rfl rfl (by decide +kernel) (by decide +kernel)))
  exact ⟨_, r3, by decide +kernel, by decide +kernel, by decide +kernel⟩

/-- A local variable of a structure without an opaque part. -/
def exG : Func where
  roots := [(.mk 2 false (.named false) .nil, false)]
  nodes := [.op (.alloca 0), .invoke (.make (.root 0 [])) 2 4, .op (.drop (.root 0 [])), .ret, .propagate]

example : verified exG ∧ (∀ R, (R, false) ∈ exG.roots → ¬ R.Opaque) ∧ Ty.room [] (.mk 2 false (.named false) .nil) = true := by
  refine ⟨verified_of 20 (by decide +kernel), ?_, by decide +kernel⟩
  intro R hR
  simp only [exG, List.mem_singleton, Prod.mk.injEq, and_true] at hR
  subst hR
  rintro ⟨p, x, h1, _, h2⟩
  cases p with
  | nil => cases h1; simp [Ty.kind] at h2
  | cons i p => simp [Ty.at, Ty.fields, Tys.get] at h1

/-- A type that is trivially copied. -/
def exInt : Ty := .mk 3 true .other .nil

/-- A loop with storage of its own, a value that is there only after one branch, copies, a move out of a field, a capture, a
projection that may fail to end, a write inside a variant, and a yield. -/
def exAll : Func where
  roots := [(exPair, true), (exT, false), (exInt, false), (exInt, false), (exPair, false)]
  nodes := [
    .op (.alloca 1),                                  -- 0
    .cond 2 3,
    .op (.make (.root 1 [])),                         -- 2
    .op (.drop (.root 1 [])),                         -- 3
    .op (.save 0),                                    -- 4
    .op (.alloca 2),
    .op (.alloca 3),
    .op (.store false (.root 2 [])),
    .op (.memcpy (.root 2 []) (.root 3 [])),
    .op (.store false (.root 2 [])),
    .op (.clear (.root 3 [])),
    .op (.restore 0),
    .cond 4 13,
    .op (.alloca 4),                                  -- 13
    .op (.move (.root 0 [0]) (.root 4 [0])),
    .op (.move (.root 0 [1]) (.root 4 [1])),
    .op (.store true (.root 0 [0])),
    .op (.move .outside (.root 0 [1])),
    .op (.move (.root 0 [0]) .outside),
    .op (.close [.root 0 [1], .root 4 [0]]),
    .op (.project 0),
    .yield 22,
    .invoke (.endProject 0) 23 26,                    -- 22
    .op (.store true (.root 4 [1, 0])),
    .op (.drop (.root 4 [1])),
    .ret,
    .invoke (.drop (.root 4 [1])) 27 28,              -- 26
    .propagate,
    .poison]

example : verified exAll ∧ flowVerified exAll :=
  ⟨verified_of 100 (by decide +kernel), flowVerified_of 100 (by decide +kernel)⟩

/-- Storage that only one branch allocates before a marker is taken (the branches are kept apart), and a copy out of a variant,
whose inside is not tracked. -/
def exApart : Func where
  roots := [(exInt, false), (exInt, false), (exT, true)]
  nodes := [
    .op (.alloca 1),
    .op (.memcpy (.root 2 [0]) (.root 1 [])),
    .op (.drop (.root 2 [])),
    .cond 4 5,
    .op (.alloca 0),                                  -- 4
    .op (.save 0),                                    -- 5
    .op (.restore 0),
    .ret]

example : verified exApart ∧ flowVerified exApart :=
  ⟨verified_of 100 (by decide +kernel), flowVerified_of 100 (by decide +kernel)⟩

/-! ### What is taken on trust -/

/-- A loop that allocates the same storage again. -/
def exLoop : Func where
  roots := [(exT, false)]
  nodes := [.op (.alloca 0), .op (.make (.root 0 [])), .cond 0 3, .op (.drop (.root 0 [])), .ret]

/-- Nothing checks that storage that is allocated again is empty: a loop without markers is accepted and leaks. -/
theorem C82_realloc_violated : ∃ F i m t, verified F ∧ Exec F i m ∧ m.tok t = .lost := by
  have hs : Start exLoop ⟨fun _ _ => false, fun _ => .unborn, [], fun _ => none, fun _ => false⟩ := by
    refine ⟨?_, ?_, fun _ => Or.inl rfl, fun _ => rfl, fun _ => rfl⟩
    · intro r
      match r with
      | 0 => simp [exLoop]
      | r + 1 => simp [exLoop]
    · intro r R q h
      match r with
      | 0 => simp [exLoop] at h
      | r + 1 => simp [exLoop] at h
  have r0 : Exec exLoop 0 _ := .start hs
  have r1 := Exec.step r0 (Step.op rfl rfl)
  have r2 := Exec.step r1 (Step.op rfl (put_new (t := 0) (x := exT) rfl rfl (by decide +kernel) (by decide +kernel)))
  have r3 := Exec.step r2 (Step.yes (e := 3) rfl)
  have r4 := Exec.step r3 (Step.op rfl rfl)
  exact ⟨exLoop, _, _, 0, verified_of 20 (by decide +kernel), r4, by decide +kernel⟩

/-- A value in storage with an opaque part that is not dropped. -/
def exLeft : Func where
  roots := [(exT, false)]
  nodes := [.op (.alloca 0), .op (.make (.root 0 [])), .ret]

/-- Storage with an opaque part may be left full: a function that forgets to drop a local variable of a variant type, or of a
type with its own way of being dropped, is accepted. -/
theorem C82_opaque_violated : ∃ F i m t, verified F ∧ Run F i m ∧ F.nodes[i]? = some .ret ∧ m.tok t = .at 0 [] := by
  have hs : Start exLeft ⟨fun _ _ => false, fun _ => .unborn, [], fun _ => none, fun _ => false⟩ := by
    refine ⟨?_, ?_, fun _ => Or.inl rfl, fun _ => rfl, fun _ => rfl⟩
    · intro r
      match r with
      | 0 => simp [exLeft]
      | r + 1 => simp [exLeft]
    · intro r R q h
      match r with
      | 0 => simp [exLeft] at h
      | r + 1 => simp [exLeft] at h
  have ht : Tracked exLeft 0 [] := ⟨exT, exT, rfl, rfl⟩
  have r0 : Run exLeft 0 _ := .start hs
  have r1 := Run.step r0 (by
    rintro o (h | ⟨n, e, h⟩)
    · cases h
      exact fun h => by cases h
    · cases h) (Step.op rfl rfl)
  have r2 := Run.step r1 (by
    rintro o (h | ⟨n, e, h⟩)
    · cases h
      exact fun h => h.1 ht
    · cases h) (Step.op rfl (put_new (t := 0) (x := exT) rfl rfl (by decide +kernel) (by decide +kernel)))
  exact ⟨exLeft, _, _, 0, verified_of 20 (by decide +kernel), r2, rfl, by decide +kernel⟩

/-- A write inside a variant whose storage has been reclaimed. -/
def exInside : Func where
  roots := [(exT, false)]
  nodes := [.op (.save 0), .op (.alloca 0), .op (.restore 0), .op (.store false (.root 0 [0])), .ret]

/-- Writes inside opaque values are not checked: one into storage that has been reclaimed is accepted. -/
theorem C82_inside_violated : ∃ F i m r p needs, verified F ∧ Exec F i m ∧ F.opAt i (.store needs (.root r p)) ∧ r ∉ m.stack := by
  have hs : Start exInside ⟨fun _ _ => false, fun _ => .unborn, [], fun _ => none, fun _ => false⟩ := by
    refine ⟨?_, ?_, fun _ => Or.inl rfl, fun _ => rfl, fun _ => rfl⟩
    · intro r
      match r with
      | 0 => simp [exInside]
      | r + 1 => simp [exInside]
    · intro r R q h
      match r with
      | 0 => simp [exInside] at h
      | r + 1 => simp [exInside] at h
  have r0 : Exec exInside 0 _ := .start hs
  have r1 := Exec.step r0 (Step.op rfl rfl)
  have r2 := Exec.step r1 (Step.op rfl rfl)
  have r3 := Exec.step r2 (Step.op rfl ⟨_, rfl, rfl⟩)
  exact ⟨exInside, _, _, 0, [0], false, verified_of 20 (by decide +kernel), r3, Or.inl rfl, by decide +kernel⟩

end Ferlium.Verify
