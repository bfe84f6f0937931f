import Verif.Proofs.VerifyTree

/-!
What the verification of storage ownership is about: executions over a memory in which every value that has to be dropped is a
token with a place.
-/
namespace Ferlium.Verify

/-- Where a value that has to be dropped is: not there yet, at a path in storage of the function, given away or dropped, or
lost, which is a leak. -/
inductive Loc where
  | unborn
  | at (r : Nat) (q : List Nat)
  | gone
  | lost
deriving DecidableEq

/-- The memory of an execution: which places are initialised, where the values are, which storage is allocated in which order,
what was allocated when a marker was taken, which projections are open. -/
structure Mem where
  full : Nat → List Nat → Bool
  tok : Nat → Loc
  stack : List Nat
  marks : Nat → Option (List Nat)
  opens : Nat → Bool

/-- The location is in the storage at the path. -/
def Under (r : Nat) (p : List Nat) (l : Loc) : Prop := ∃ s, l = .at r (p ++ s)

instance (r : Nat) (p : List Nat) (l : Loc) : Decidable (Under r p l) :=
  match l with
  | .at r' q =>
    if h : r' = r ∧ p <+: q then .isTrue (by obtain ⟨rfl, s, rfl⟩ := h; exact ⟨s, rfl⟩)
    else .isFalse (by rintro ⟨s, hs⟩; cases hs; exact h ⟨rfl, s, rfl⟩)
  | .unborn => .isFalse (by rintro ⟨s, hs⟩; cases hs)
  | .gone => .isFalse (by rintro ⟨s, hs⟩; cases hs)
  | .lost => .isFalse (by rintro ⟨s, hs⟩; cases hs)

/-- The storage at the path becomes initialised or uninitialised. -/
def Mem.fill (r : Nat) (p : List Nat) (b : Bool) (m : Mem) : Mem :=
  { m with full := fun r' q => if r' = r ∧ p <+: q then b else m.full r' q }

/-- What is in the storage at the path goes away. -/
def Mem.send (r : Nat) (p : List Nat) (l : Loc) (m : Mem) : Mem :=
  { m with tok := fun t => if Under r p (m.tok t) then l else m.tok t }

/-- The type of a root. -/
def Func.ty (F : Func) (r : Nat) : Option Ty := (F.roots[r]?).map (·.1)

/-- The place has its own state. -/
def Tracked (F : Func) (r : Nat) (p : List Nat) : Prop := ∃ R x, F.ty r = some R ∧ Ty.at p R = some x

/-- A value is written to a place: what was in it is lost; what is inside an opaque value keeps what it had. -/
def Overwrite (F : Func) (r : Nat) (p : List Nat) (m m1 : Mem) : Prop :=
  ∃ R, F.ty r = some R ∧
    ((Tracked F r p ∧ m1 = (m.send r p .lost).fill r p true) ∨ (¬ Tracked F r p ∧ m1 = m.fill r (Ty.shell p R) true))

/-- New values appear in the place. -/
def Born (F : Func) (r : Nat) (p : List Nat) (tok tok' : Nat → Loc) : Prop :=
  ∃ R, F.ty r = some R ∧
    ∀ t, tok' t = tok t ∨ (tok t = .unborn ∧ ∃ s, tok' t = .at r (p ++ s) ∧ Ty.room (p ++ s) R = true)

/-- A new value is written, which may contain something that has to be dropped only if it is said to. -/
def Put (F : Func) (fresh : Bool) : Place → Mem → Mem → Prop
  | .outside, m, m' => m' = m
  | .root r p, m, m' => ∃ m1 tok', Overwrite F r p m m1 ∧ Born F r p m1.tok tok' ∧ (fresh = false → tok' = m1.tok) ∧
      m' = { m1 with tok := tok' }

/-- The value in a place is dropped or given away. -/
def Take : Place → Mem → Mem
  | .outside, m => m
  | .root r p, m => (m.send r p .gone).fill r p false

def TakeAll : List Place → Mem → Mem
  | [], m => m
  | p :: rest, m => TakeAll rest (Take p m)

/-- A value moves: what it contains goes with it, to the same place in it if the types are the same, else to some place that
has room for it. -/
def Move (F : Func) : Place → Place → Mem → Mem → Prop
  | .outside, dst, m, m' => Put F true dst m m'
  | .root r p, .outside, m, m' =>
    (Tracked F r p ∧ m' = Take (.root r p) m) ∨ (¬ Tracked F r p ∧ m' = m.send r p .gone)
  | .root r p, .root r' p', m, m' => ∃ R R' m1 tok', F.ty r = some R ∧ F.ty r' = some R' ∧ Overwrite F r' p' m m1 ∧
      (∀ t, (∀ s, m1.tok t ≠ .at r (p ++ s)) → tok' t = m1.tok t) ∧
      (∀ t s, m1.tok t = .at r (p ++ s) → ∃ s', tok' t = .at r' (p' ++ s') ∧ Ty.room (p' ++ s') R' = true ∧
        (∀ x, Ty.at p R = some x → Ty.at p' R' = some x → s' = s)) ∧
      ((Tracked F r p ∧ m' = Mem.fill r p false { m1 with tok := tok' }) ∨ (¬ Tracked F r p ∧ m' = { m1 with tok := tok' }))

/-- What an operation does, if it succeeds and if it fails.  One that fails has done nothing, except for ending a value, for the
arguments given to a call, and for ending a projection. -/
def Do (F : Func) : Op → Bool → Mem → Mem → Prop
  | .alloca r, true, m, m' => m' = { (m.send r [] .lost).fill r [] false with stack := m.stack ++ [r] }
  | .store needs dst, true, m, m' => Put F needs dst m m'
  | .memcpy _ dst, true, m, m' => Put F false dst m m'
  | .move src dst, true, m, m' => Move F src dst m m'
  | .clear .outside, true, m, m' => m' = m
  | .clear (.root r p), true, m, m' =>
    (Tracked F r p ∧ m' = (m.send r p .lost).fill r p false) ∨ (¬ Tracked F r p ∧ m' = m)
  | .drop dst, _, m, m' => m' = Take dst m
  | .make dst, true, m, m' => Put F true dst m m'
  | .call owned dst, true, m, m' => Put F true dst (TakeAll owned m) m'
  | .call owned _, false, m, m' => m' = TakeAll owned m
  | .close captures, true, m, m' => m' = TakeAll captures m
  | .save k, true, m, m' => m' = { m with marks := fun k' => if k' = k then some m.stack else m.marks k' }
  | .restore k, true, m, m' => ∃ saved, m.marks k = some saved ∧
      m' = { m with
        stack := m.stack.take saved.length
        tok := fun t => match m.tok t with
          | .at r q => if r ∈ m.stack.take saved.length then .at r q else .lost
          | l => l }
  | .project j, true, m, m' => m' = { m with opens := fun j' => if j' = j then true else m.opens j' }
  | .endProject j, _, m, m' => m' = { m with opens := fun j' => if j' = j then false else m.opens j' }
  | _, _, m, m' => m' = m

/-- Writing to storage that is not allocated. -/
def BadWrite (F : Func) : Place → Mem → Prop
  | .outside, _ => False
  | .root r p, m => Tracked F r p ∧ r ∉ m.stack

/-- Reading storage that is not allocated or not initialised. -/
def BadRead (F : Func) : Place → Mem → Prop
  | .outside, _ => False
  | .root r p, m => ∃ R x, F.ty r = some R ∧ Ty.at p R = some x ∧
      (r ∉ m.stack ∨ ∃ s, Ty.ends s x = true ∧ m.full r (p ++ s) = false)

/-- The place holds something that has to be dropped. -/
def Holds (F : Func) : Place → Mem → Prop
  | .outside, _ => False
  | .root r p, m => Tracked F r p ∧ ∃ t, Under r p (m.tok t)

def BadTakes (F : Func) : List Place → Mem → Prop
  | [], _ => False
  | p :: rest, m => BadRead F p m ∨ BadTakes F rest (Take p m)

/-- What must never happen. -/
def Bad (F : Func) : Op → Mem → Prop
  | .store _ dst, m => BadWrite F dst m
  | .memcpy src dst, m => BadRead F src m ∨ Holds F src m ∨ BadWrite F dst m
  | .move src dst, m => BadRead F src m ∨ BadWrite F dst m
  | .clear dst, m => BadWrite F dst m
  | .drop dst, m => BadWrite F dst m
  | .make dst, m => BadWrite F dst m
  | .call owned dst, m => BadTakes F owned m ∨ BadWrite F dst (TakeAll owned m)
  | .close captures, m => BadTakes F captures m
  | .restore k, m => m.marks k = none
  | .project j, m => m.opens j = true
  | .endProject j, m => m.opens j = false
  | _, _ => False

/-- Writing inside an opaque value that is not allocated. -/
def OddWrite (F : Func) : Place → Mem → Prop
  | .outside, _ => False
  | .root r p, m => ¬ Tracked F r p ∧ r ∉ m.stack

/-- What the verification takes on trust: storage is allocated once at a time, markers are restored in the order of a stack,
the insides of opaque values are only written while there is storage for them, and no value is moved into itself. -/
def Odd (F : Func) : Op → Mem → Prop
  | .alloca r, m => r ∈ m.stack
  | .store _ dst, m => OddWrite F dst m
  | .memcpy _ dst, m => OddWrite F dst m
  | .move (.root r p) (.root r' p'), m => OddWrite F (.root r' p') m ∨ (r' = r ∧ p <+: p')
  | .move .outside dst, m => OddWrite F dst m
  | .make dst, m => OddWrite F dst m
  | .call owned dst, m => OddWrite F dst (TakeAll owned m)
  | .restore k, m => ∃ saved, m.marks k = some saved ∧ ¬ saved <+: m.stack
  | _, _ => False

/-- The operation at a node. -/
def Func.opAt (F : Func) (i : Nat) (o : Op) : Prop :=
  F.nodes[i]? = some (.op o) ∨ ∃ n e, F.nodes[i]? = some (.invoke o n e)

/-- One step of an execution. -/
inductive Step (F : Func) : Nat → Mem → Nat → Mem → Prop
  | op {i o m m'} : F.nodes[i]? = some (.op o) → Do F o true m m' → Step F i m (i + 1) m'
  | goto {i t m} : F.nodes[i]? = some (.goto t) → Step F i m t m
  | yes {i t e m} : F.nodes[i]? = some (.cond t e) → Step F i m t m
  | no {i t e m} : F.nodes[i]? = some (.cond t e) → Step F i m e m
  | normal {i o n e m m'} : F.nodes[i]? = some (.invoke o n e) → Do F o true m m' → Step F i m n m'
  | error {i o n e m m'} : F.nodes[i]? = some (.invoke o n e) → Do F o false m m' → Step F i m e m'
  | resume {i t m} : F.nodes[i]? = some (.yield t) → Step F i m t m

/-- The memory at the entry: the owned parameters are allocated and initialised. -/
structure Start (F : Func) (m : Mem) : Prop where
  stack : ∀ r, r ∈ m.stack ↔ ∃ R, F.roots[r]? = some (R, true)
  full : ∀ r R q, F.roots[r]? = some (R, true) → m.full r q = true
  tok : ∀ t, m.tok t = .unborn ∨ ∃ r q R, m.tok t = .at r q ∧ F.roots[r]? = some (R, true) ∧ Ty.room q R = true
  marks : ∀ k, m.marks k = none
  opens : ∀ j, m.opens j = false

/-- The node and memory are reached by an execution that keeps to what is trusted. -/
inductive Run (F : Func) : Nat → Mem → Prop
  | start {m} : Start F m → Run F 0 m
  | step {i m i' m'} : Run F i m → (∀ o, F.opAt i o → ¬ Odd F o m) → Step F i m i' m' → Run F i' m'

/-- The node and memory are reached by some execution. -/
inductive Exec (F : Func) : Nat → Mem → Prop
  | start {m} : Start F m → Exec F 0 m
  | step {i m i' m'} : Exec F i m → Step F i m i' m' → Exec F i' m'

/-- A part of the type is opaque and has to be dropped. -/
def Ty.Opaque (R : Ty) : Prop :=
  ∃ p x, Ty.at p R = some x ∧ x.plain = false ∧ (x.kind = .other ∨ x.kind = .named true)

/-- What holds when a function ends: no projection is open, the owned parameters are empty, and nothing that has to be dropped
is left, except in storage of the function with an opaque part. -/
structure Clean (F : Func) (m : Mem) : Prop where
  opens : ∀ j, m.opens j = false
  empty : ∀ r R q, F.roots[r]? = some (R, true) → Ty.ends q R = true → m.full r q = false
  tok : ∀ t, m.tok t = .unborn ∨ m.tok t = .gone ∨
    ∃ r q R, m.tok t = .at r q ∧ F.roots[r]? = some (R, false) ∧ R.Opaque

end Ferlium.Verify
