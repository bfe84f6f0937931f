import Verif.Model.StdCache
import Mathlib.Tactic

/-!
# Processes on one cache
-/

namespace Ferlium.StdCache

variable {R : Type}

theorem checked_iff {E : Env R} (hd : ∀ p, (E.digest p).length = 32) (b p : Bytes) :
    checked E b = some p ↔ b = fileBytes E p := by
  unfold checked fileBytes
  constructor
  · intro h
    split at h
    · cases h
    · rename_i hn
      simp only [] at h
      split at h
      · rename_i he
        cases h
        rw [he]
        have h1 : b.take magic.length = magic := by
          by_contra hc
          exact hn (.inr hc)
        conv_lhs => rw [← List.take_append_drop magic.length b, h1]
        rw [List.append_assoc]
        congr 1
        rw [← List.drop_drop, List.take_append_drop]
      · cases h
  · rintro rfl
    have hl : (magic ++ E.digest p ++ p).length = magic.length + 32 + p.length := by
      simp [hd p, Nat.add_assoc]
    have h1 : (magic ++ E.digest p ++ p).take magic.length = magic := by
      rw [List.append_assoc, List.take_left' rfl]
    have h2 : ((magic ++ E.digest p ++ p).drop magic.length).take 32 = E.digest p := by
      rw [List.append_assoc, List.drop_left' rfl, List.take_left' (hd p)]
    have h3 : (magic ++ E.digest p ++ p).drop (magic.length + 32) = p := by
      rw [List.drop_left' (by simp [hd p])]
    rw [if_neg (by
      rw [hl, h1]
      simp)]
    simp only [h2, h3, if_true]

/-- The process holds the lock there. -/
def Holding : Pc R → Bool
  | .locked | .discard | .build | .create .. | .write .. | .rename .. | .replace .. | .again ..
  | .cleanup _ => true
  | _ => false

/-- What is known of a process and its temporary file. -/
def PcOk (E : Env R) (Made : Bytes → Prop) (Good : R → Prop) (t : Option Bytes) : Pc R → Prop
  | .create p r | .write p r => Made p ∧ Good r
  | .rename p r | .replace p r | .again p r => Made p ∧ Good r ∧ t = some (fileBytes E p)
  | .cleanup r | .done r => Good r
  | _ => True

theorem PcOk.indep {E : Env R} {Made : Bytes → Prop} {Good : R → Prop} {t t' : Option Bytes}
    {pc : Pc R} (h : PcOk E Made Good t pc) (hh : Holding pc = false) : PcOk E Made Good t' pc := by
  cases pc <;> first | exact h | cases hh

/-- The invariant. -/
structure Inv (E : Env R) (Made : Bytes → Prop) (Good : R → Prop) (s : State R) : Prop where
  cache : ∀ b p, s.cache = some b → checked E b = some p → Made p
  held : ∀ i, Holding (s.pc i) = true → s.holder = some i
  live : ∀ i, s.holder = some i → Holding (s.pc i) = true
  ok : ∀ i, PcOk E Made Good (s.temp (E.name i)) (s.pc i)

variable {E : Env R} {Made : Bytes → Prop} {Good : R → Prop} {s : State R}

theorem Inv.goto (h : Inv E Made Good s) {i : Nat} {pc : Pc R} (hh : Holding pc = Holding (s.pc i))
    (hp : PcOk E Made Good (s.temp (E.name i)) pc) : Inv E Made Good (s.goto i pc) := by
  refine ⟨h.cache, fun j hj => ?_, fun j hj => ?_, fun j => ?_⟩
  · simp only [State.goto] at hj ⊢
    split at hj
    · rename_i he; subst he; exact h.held j (hh ▸ hj)
    · exact h.held j hj
  · simp only [State.goto] at hj ⊢
    split
    · rename_i he; subst he; rw [hh]; exact h.live j hj
    · exact h.live j hj
  · simp only [State.goto]
    split
    · rename_i he; subst he; exact hp
    · exact h.ok j

theorem Inv.leave (h : Inv E Made Good s) {i : Nat} {pc : Pc R} (hh : Holding pc = false)
    (hp : PcOk E Made Good (s.temp (E.name i)) pc) : Inv E Made Good (s.leave i pc) := by
  refine ⟨h.cache, fun j hj => ?_, fun j hj => ?_, fun j => ?_⟩
  · simp only [State.leave, State.goto] at hj ⊢
    split at hj
    · rw [hh] at hj; cases hj
    · rename_i hne
      have := h.held j hj
      rw [this, if_neg (by simpa using hne)]
  · simp only [State.leave, State.goto] at hj ⊢
    split at hj
    · cases hj
    · rename_i hn
      split
      · rename_i he; subst he; exact absurd hj hn
      · exact h.live j hj
  · simp only [State.leave, State.goto]
    split
    · rename_i he; subst he; exact hp
    · exact h.ok j

/-- Only the holder writes a temporary file. -/
theorem Inv.tempGoto (h : Inv E Made Good s) {i : Nat} (hi : Holding (s.pc i) = true)
    {b : Option Bytes} {pc : Pc R} (hh : Holding pc = true) (hp : PcOk E Made Good b pc) :
    Inv E Made Good ((s.setTemp (E.name i) b).goto i pc) := by
  refine ⟨h.cache, fun j hj => ?_, fun j hj => ?_, fun j => ?_⟩
  · simp only [State.goto, State.setTemp] at hj ⊢
    split at hj
    · rename_i he; subst he; exact h.held j hi
    · exact h.held j hj
  · simp only [State.goto, State.setTemp] at hj ⊢
    split
    · exact hh
    · exact h.live j hj
  · simp only [State.goto, State.setTemp]
    by_cases he : j = i
    · subst he; simpa using hp
    · rw [if_neg he]
      refine (h.ok j).indep ?_
      cases hj : Holding (s.pc j) with
      | false => rfl
      | true =>
        have h1 := h.held j hj
        rw [h.held i hi] at h1
        cases h1
        exact absurd rfl he

theorem Inv.tempLeave (h : Inv E Made Good s) {i : Nat} (hi : Holding (s.pc i) = true)
    {b : Option Bytes} {pc : Pc R} (hh : Holding pc = false) (hp : PcOk E Made Good b pc) :
    Inv E Made Good ((s.setTemp (E.name i) b).leave i pc) := by
  have hH : ((s.setTemp (E.name i) b).leave i pc).holder = none := if_pos (h.held i hi)
  refine ⟨h.cache, fun j hj => ?_, fun j hj => ?_, fun j => ?_⟩
  · simp only [State.leave, State.goto, State.setTemp] at hj
    split at hj
    · rw [hh] at hj; cases hj
    · rename_i hne
      have h1 := h.held j hj
      rw [h.held i hi] at h1
      cases h1
      exact absurd rfl hne
  · rw [hH] at hj
    cases hj
  · simp only [State.leave, State.goto, State.setTemp]
    by_cases he : j = i
    · subst he; simpa using hp
    · rw [if_neg he]
      refine (h.ok j).indep ?_
      cases hj : Holding (s.pc j) with
      | false => rfl
      | true =>
        have h1 := h.held j hj
        rw [h.held i hi] at h1
        cases h1
        exact absurd rfl he

theorem Inv.withCache (h : Inv E Made Good s) {c : Option Bytes}
    (hc : ∀ b p, c = some b → checked E b = some p → Made p) :
    Inv E Made Good { s with cache := c } := ⟨hc, h.held, h.live, h.ok⟩

theorem Inv.mark (h : Inv E Made Good s) (f : Bool) : Inv E Made Good (s.mark f) :=
  ⟨h.cache, h.held, h.live, h.ok⟩

theorem hit_good (h : Inv E Made Good s) (hload : ∀ p r, Made p → E.load p = some r → Good r)
    {f : Bool} {r : R} (hr : tryLoad E f s.cache = .hit r) : Good r := by
  unfold tryLoad at hr
  split at hr
  · split at hr <;> cases hr
  · rename_i b hb
    split at hr
    · cases hr
    · split at hr
      · cases hr
      · rename_i p hp
        split at hr
        · cases hr
        · rename_i r' hl
          cases hr
          exact hload p _ (h.cache b p hb hp) hl

theorem Inv.act (h : Inv E Made Good s) (hd : ∀ p, (E.digest p).length = 32) (hc : Good E.compiled)
    (hf : Good E.leftover)
    (hload : ∀ p r, Made p → E.load p = some r → Good r) (i : Nat) (c : Choice)
    (hm : ∀ p, c.capture = .payload p → Made p) : Inv E Made Good (act E i c s) := by
  have hok := h.ok i
  unfold StdCache.act
  cases hpc : s.pc i with
  | start =>
    simp only []
    split
    · exact h.leave rfl hc
    · split
      · rename_i hr
        exact h.leave rfl (hit_good h hload hr)
      · exact h.goto (by rw [hpc]; rfl) trivial
  | look =>
    simp only []
    split
    · exact h.leave rfl hc
    · exact h.goto (by rw [hpc]; rfl) trivial
  | dirs =>
    simp only []
    split
    · exact h.leave rfl hc
    · exact h.goto (by rw [hpc]; rfl) trivial
  | openLock =>
    simp only []
    split
    · exact h.leave rfl hc
    · exact h.goto (by rw [hpc]; rfl) trivial
  | poll n =>
    simp only []
    split
    · exact h.leave rfl hc
    · exact h.goto (by rw [hpc]; rfl) trivial
  | peek n =>
    simp only []
    split
    · rename_i hr
      exact h.leave rfl (hit_good h hload hr)
    · exact h.goto (by rw [hpc]; rfl) trivial
  | lock n =>
    simp only []
    split
    · exact h.leave rfl hc
    · cases hho : s.holder with
      | none =>
        simp only []
        refine ⟨h.cache, fun j hj => ?_, fun j hj => ?_, fun j => ?_⟩
        · simp only [State.goto] at hj ⊢
          split at hj
          · rename_i he; rw [he]
          · rw [h.held j hj] at hho; cases hho
        · simp only [State.goto, Option.some.injEq] at hj ⊢
          rw [if_pos hj.symm]
          rfl
        · simp only [State.goto]
          split
          · trivial
          · exact h.ok j
      | some k =>
        simp only []
        cases n with
        | zero => exact h.leave rfl hc
        | succ n =>
          simp only []
          split
          · exact h.leave rfl hc
          · exact h.goto (by rw [hpc]; rfl) trivial
  | locked =>
    simp only []
    split
    · rename_i hr
      exact h.leave rfl (hit_good h hload hr)
    · exact h.goto (by rw [hpc]; rfl) trivial
    · exact h.goto (by rw [hpc]; rfl) trivial
  | discard =>
    simp only []
    refine (h.goto (i := i) (pc := .build) (by rw [hpc]; rfl) trivial).withCache fun b p hb => ?_
    split at hb
    · exact h.cache b p hb
    · cases hb
  | build =>
    simp only []
    split
    · exact (h.mark _).leave rfl hf
    · exact h.leave rfl hc
    · rename_i p hp
      split
      · exact (h.mark _).leave rfl hc
      · rename_i r hr
        exact h.goto (by rw [hpc]; rfl) ⟨hm p hp, hload p r (hm p hp) hr⟩
  | create p r =>
    rw [hpc] at hok
    simp only []
    split
    · exact h.goto (by rw [hpc]; rfl) hok.2
    · exact h.tempGoto (by rw [hpc]; rfl) rfl hok
  | write p r =>
    rw [hpc] at hok
    simp only []
    split
    · exact h.tempGoto (by rw [hpc]; rfl) rfl hok.2
    · exact h.tempGoto (by rw [hpc]; rfl) rfl ⟨hok.1, hok.2, rfl⟩
  | rename p r =>
    rw [hpc] at hok
    simp only []
    split
    · split
      · exact h.goto (by rw [hpc]; rfl) hok
      · exact h.goto (by rw [hpc]; rfl) hok.2.1
    · refine (h.tempLeave (i := i) (b := none) (pc := .done r) (by rw [hpc]; rfl) rfl hok.2.1).withCache fun b q hb hq => ?_
      rw [hok.2.2] at hb
      cases hb
      rw [(checked_iff hd _ p).2 rfl] at hq
      cases hq
      exact hok.1
  | replace p r =>
    rw [hpc] at hok
    simp only []
    split
    · exact h.goto (by rw [hpc]; rfl) hok.2.1
    · exact (h.goto (i := i) (pc := .again p r) (by rw [hpc]; rfl) hok).withCache fun b q hb => by cases hb
  | again p r =>
    rw [hpc] at hok
    simp only []
    split
    · exact h.goto (by rw [hpc]; rfl) hok.2.1
    · refine (h.tempLeave (i := i) (b := none) (pc := .done r) (by rw [hpc]; rfl) rfl hok.2.1).withCache fun b q hb hq => ?_
      rw [hok.2.2] at hb
      cases hb
      rw [(checked_iff hd _ p).2 rfl] at hq
      cases hq
      exact hok.1
  | cleanup r =>
    rw [hpc] at hok
    simp only []
    split
    · exact h.leave rfl hok
    · exact h.tempLeave (by rw [hpc]; rfl) rfl hok
  | done r => exact h
  | dead => exact h

/-- How many steps a process has left at most. -/
def left (E : Env R) : Pc R → Nat
  | .start => 3 * E.polls + 20
  | .look => 3 * E.polls + 19
  | .dirs => 3 * E.polls + 18
  | .openLock => 3 * E.polls + 17
  | .poll n => 3 * n + 14
  | .peek n => 3 * n + 13
  | .lock n => 3 * n + 12
  | .locked => 10
  | .discard => 9
  | .build => 8
  | .create .. => 6
  | .write .. => 5
  | .rename .. => 4
  | .replace .. => 3
  | .again .. => 2
  | .cleanup _ => 1
  | .done _ => 0
  | .dead => 0

theorem act_other (E : Env R) {i j : Nat} (hne : j ≠ i) (c : Choice) (s : State R) :
    (act E i c s).pc j = s.pc j := by
  unfold act
  repeat' split
  all_goals simp [State.leave, State.goto, State.setTemp, State.mark, hne]

theorem act_left (E : Env R) (i : Nat) (c : Choice) (s : State R) (h : left E (s.pc i) ≠ 0) :
    left E ((act E i c s).pc i) < left E (s.pc i) := by
  unfold act
  cases hpc : s.pc i
  case done => rw [hpc] at h; exact absurd rfl h
  case dead => rw [hpc] at h; exact absurd rfl h
  all_goals
    simp only []
    repeat' split
    all_goals simp [State.leave, State.goto, State.setTemp, State.mark, left]
  all_goals omega

end Ferlium.StdCache
