import Verif.Model.Mutability
import Mathlib.Tactic.SplitIfs

/-!
Lemmas about the union-find table of mutabilities: which assignments agree with a table, and how the
operations change them.
-/

namespace Ferlium.Mutability

/-- Representatives represent themselves. -/
def Wf (t : Table) : Prop := ∀ x, t.rep (t.rep x) = t.rep x

/-- The assignment is one of those which the table describes. -/
structure Agrees (σ : Nat → Bool) (t : Table) : Prop where
  rep : ∀ x, σ (t.rep x) = σ x
  value : ∀ x b, t.probe x = some b → σ x = b

theorem Wf.new (n : Nat) : Wf (Table.new n) := fun _ => rfl

theorem Agrees.new (σ : Nat → Bool) (n : Nat) : Agrees σ (Table.new n) := ⟨fun _ => rfl, nofun⟩

theorem Wf.probe {t : Table} (h : Wf t) (x : Nat) : t.probe (t.rep x) = t.probe x := by
  simp only [Table.probe, h x]

theorem normalize_var {t : Table} {m : MutTy} {r : Nat} (h : t.normalize m = .var r) :
    ∃ x, m = .var x ∧ r = t.rep x ∧ t.probe x = none := by
  cases m with
  | val b => cases h
  | var x =>
    simp only [Table.normalize] at h
    split at h
    · cases h
    · cases h
      exact ⟨x, rfl, rfl, by assumption⟩

theorem Agrees.normalize {σ t} (h : Agrees σ t) (m : MutTy) :
    (t.normalize m).under σ = m.under σ := by
  cases m with
  | val b => rfl
  | var x =>
    simp only [Table.normalize]
    split
    · rename_i b hb
      exact (h.value x b hb).symm
    · exact h.rep x

/-- Setting the value of a class without value. -/
def setValue (t : Table) (x : Nat) (b : Bool) : Table :=
  { t with value := fun r => if r = t.rep x then some b else t.value r }

theorem unifyValue_none {t : Table} {x : Nat} (h : t.probe x = none) (b : Bool) :
    t.unifyValue x b = some (setValue t x b) := by
  simp [Table.unifyValue, h, unifyValues, setValue]

theorem setValue_probe (t : Table) (x : Nat) (b : Bool) (y : Nat) :
    (setValue t x b).probe y = if t.rep y = t.rep x then some b else t.probe y := rfl

theorem setValue_wf {t : Table} (h : Wf t) (x : Nat) (b : Bool) : Wf (setValue t x b) := h

theorem setValue_agrees {σ : Nat → Bool} {t : Table} {x : Nat} (h : t.probe x = none) (b : Bool) :
    Agrees σ (setValue t x b) ↔ Agrees σ t ∧ σ x = b := by
  constructor
  · intro ha
    refine ⟨⟨ha.rep, fun y c hy => ha.value y c ?_⟩, ha.value x b ?_⟩
    · rw [setValue_probe, if_neg]
      · exact hy
      · intro he
        simp only [Table.probe, he] at hy h
        rw [h] at hy
        cases hy
    · rw [setValue_probe, if_pos rfl]
  · rintro ⟨ha, hx⟩
    refine ⟨ha.rep, fun y c hy => ?_⟩
    rw [setValue_probe] at hy
    split_ifs at hy with he
    · cases hy
      rw [← ha.rep y, he, ha.rep x, hx]
    · exact ha.value y c hy

/-- Joining two classes without value. -/
theorem unifyVars_none {t : Table} (hw : Wf t) {x y : Nat} (hx : t.probe x = none)
    (hy : t.probe y = none) : ∃ t', t.unifyVars x y = some t' ∧ Wf t' ∧
      ∀ σ, Agrees σ t' ↔ Agrees σ t ∧ σ x = σ y := by
  simp only [Table.unifyVars]
  split_ifs with he
  · refine ⟨t, rfl, hw, fun σ => ⟨fun h => ⟨h, ?_⟩, And.left⟩⟩
    rw [← h.rep x, he, h.rep y]
  · simp only [hx, hy, unifyValues]
    refine ⟨_, rfl, ?_, fun σ => ⟨fun h => ?_, fun ⟨h, hs⟩ => ?_⟩⟩
    · intro z
      simp only
      by_cases hz : t.rep z = t.rep x
      · simp only [hz, if_true, hw y]
        rw [if_neg (fun h' => he h'.symm)]
      · simp only [if_neg hz, hw z]
    · have hrep : ∀ z, σ z = if t.rep z = t.rep x then σ (t.rep y) else σ (t.rep z) := by
        intro z
        have := h.rep z
        simp only at this
        rw [← this]
        split_ifs <;> rfl
      have hx' : σ x = σ (t.rep y) := by
        have := hrep x
        rwa [if_pos rfl] at this
      have hy' : σ y = σ (t.rep y) := by
        have := hrep y
        rwa [if_neg (fun h' => he h'.symm)] at this
      refine ⟨⟨fun z => ?_, fun z b hz => ?_⟩, hx'.trans hy'.symm⟩
      · have h1 := hrep z
        have h2 := hrep (t.rep z)
        rw [hw z] at h2
        exact h2.trans h1.symm
      · refine h.value z b ?_
        simp only [Table.probe]
        have hzx : t.rep z ≠ t.rep x := by
          intro h'
          simp only [Table.probe, h'] at hz hx
          rw [hx] at hz
          cases hz
        have hzy : t.rep z ≠ t.rep y := by
          intro h'
          simp only [Table.probe, h'] at hz hy
          rw [hy] at hz
          cases hz
        rw [if_neg hzx, if_neg hzy]
        exact hz
    · refine ⟨fun z => ?_, fun z b hz => ?_⟩
      · simp only
        split_ifs with hz
        · rw [h.rep y, ← hs, ← h.rep x, ← hz, h.rep z]
        · exact h.rep z
      · simp only [Table.probe] at hz
        by_cases hzx : t.rep z = t.rep x
        · simp [hzx] at hz
        · rw [if_neg hzx] at hz
          by_cases hzy : t.rep z = t.rep y
          · simp [hzy] at hz
          · rw [if_neg hzy] at hz
            exact h.value z b hz

/-- What a step with result does: nothing else than restricting the assignments by a condition
between what the constraint says and equality. -/
structure Does (t t' : Table) (holds strict : (Nat → Bool) → Prop) : Prop where
  wf : Wf t'
  sound : ∀ σ, Agrees σ t' → Agrees σ t ∧ holds σ
  complete : ∀ σ, Agrees σ t → strict σ → Agrees σ t'

theorem Does.same {t : Table} {holds strict : (Nat → Bool) → Prop} (hw : Wf t)
    (h : ∀ σ, Agrees σ t → holds σ) : Does t t holds strict :=
  ⟨hw, fun σ ha => ⟨ha, h σ ha⟩, fun _ ha _ => ha⟩

theorem Does.iff {t t' : Table} {holds strict cond : (Nat → Bool) → Prop} (hw : Wf t')
    (h : ∀ σ, Agrees σ t' ↔ Agrees σ t ∧ cond σ) (h₁ : ∀ σ, Agrees σ t → cond σ → holds σ)
    (h₂ : ∀ σ, Agrees σ t → strict σ → cond σ) : Does t t' holds strict :=
  ⟨hw, fun σ ha => ⟨((h σ).mp ha).1, h₁ σ ((h σ).mp ha).1 ((h σ).mp ha).2⟩,
    fun σ ha hs => (h σ).mpr ⟨ha, h₂ σ ha hs⟩⟩

/-- The constraint of `unify`. -/
def con (sub : Bool) (c e : MutTy) : Con := if sub then .atLeast c e else .same c e

theorem con_holds (σ : Nat → Bool) (sub : Bool) (c e : MutTy) :
    (con sub c e).Holds σ ↔ if sub then (e.under σ = true → c.under σ = true)
      else c.under σ = e.under σ := by
  cases sub <;> exact Iff.rfl

theorem strict_holds {σ : Nat → Bool} {c : Con} (h : c.Strict σ) : c.Holds σ := by
  cases c with
  | same c e => exact h
  | atLeast c e =>
    cases c <;> cases e
    · simp only [Con.Strict] at h
      simp only [Con.Holds, MutTy.under]
      intro he
      rw [h, he]
    all_goals exact h

theorem strict_iff {σ : Nat → Bool} {c : Con} (h : c.twoVars = false) : c.Strict σ ↔ c.Holds σ := by
  cases c with
  | same c e => exact Iff.rfl
  | atLeast c e =>
    cases c <;> cases e <;> first | exact Iff.rfl | simp [Con.twoVars] at h

theorem unify_spec {t : Table} (hw : Wf t) (c e : MutTy) (sub : Bool) :
    (∃ t', unify t c e sub = .ok t' ∧
      Does t t' (fun σ => (con sub c e).Holds σ) (fun σ => (con sub c e).Strict σ)) ∨
    (∃ w, unify t c e sub = .error w ∧ w = (if sub then What.mutable else What.equal) ∧
      ∀ σ, Agrees σ t → ¬ (con sub c e).Holds σ) := by
  simp only [unify]
  cases hc : t.normalize c with
  | var r =>
    obtain ⟨x, rfl, rfl, hx⟩ := normalize_var hc
    cases he : t.normalize e with
    | var r' =>
      obtain ⟨y, rfl, rfl, hy⟩ := normalize_var he
      left
      obtain ⟨t', h1, h2, h3⟩ := unifyVars_none hw ((hw.probe x).trans hx) ((hw.probe y).trans hy)
      refine ⟨t', by simp only [h1, orErr], Does.iff h2 h3 (fun σ ha hσ => ?_) (fun σ ha hs => ?_)⟩
      · rw [ha.rep, ha.rep] at hσ
        cases sub
        · exact hσ
        · exact fun h => hσ.trans h
      · rw [ha.rep, ha.rep]
        cases sub <;> exact hs
    | val b =>
      left
      have heq : ∀ σ, Agrees σ t → e.under σ = b := fun σ ha => by
        rw [← ha.normalize e, he]; rfl
      have hx' : t.probe (t.rep x) = none := (hw.probe x).trans hx
      simp only [currentVar]
      cases sub with
      | true =>
        cases b with
        | false =>
          refine ⟨t, rfl, Does.same hw (fun σ ha h => ?_)⟩
          rw [heq σ ha] at h
          cases h
        | true =>
          simp only [unifyValue_none hx', orErr]
          refine ⟨_, rfl, Does.iff (setValue_wf hw _ _) (fun σ => setValue_agrees hx' true)
            (fun σ ha hσ => ?_) (fun σ ha hs => ?_)⟩
          · intro _
            rw [ha.rep] at hσ
            exact hσ
          · rw [ha.rep]
            exact strict_holds hs (heq σ ha)
      | false =>
        simp only [unifyValue_none hx', orErr, Bool.false_eq_true, if_false]
        refine ⟨_, rfl, Does.iff (setValue_wf hw _ _) (fun σ => setValue_agrees hx' b)
          (fun σ ha hσ => ?_) (fun σ ha hs => ?_)⟩
        · rw [ha.rep] at hσ
          exact hσ.trans (heq σ ha).symm
        · rw [ha.rep]
          exact (strict_holds hs).trans (heq σ ha)
  | val a =>
    have hca : ∀ σ, Agrees σ t → c.under σ = a := fun σ ha => by
      rw [← ha.normalize c, hc]; rfl
    cases he : t.normalize e with
    | var r' =>
      left
      obtain ⟨y, rfl, rfl, hy⟩ := normalize_var he
      have hy' : t.probe (t.rep y) = none := (hw.probe y).trans hy
      simp only [targetVar]
      cases sub with
      | true =>
        cases a with
        | true => exact ⟨t, rfl, Does.same hw (fun σ ha _ => hca σ ha)⟩
        | false =>
          simp only [unifyValue_none hy', orErr]
          refine ⟨_, rfl, Does.iff (setValue_wf hw _ _) (fun σ => setValue_agrees hy' false)
            (fun σ ha hσ => ?_) (fun σ ha hs => ?_)⟩
          · intro h
            rw [ha.rep] at hσ
            simp only [MutTy.under] at h
            rw [hσ] at h
            cases h
          · rw [ha.rep]
            have h1 := strict_holds hs
            cases hσ : σ y with
            | false => rfl
            | true =>
              have := h1 hσ
              rw [hca σ ha] at this
              cases this
      | false =>
        simp only [unifyValue_none hy', orErr, Bool.false_eq_true, if_false]
        refine ⟨_, rfl, Does.iff (setValue_wf hw _ _) (fun σ => setValue_agrees hy' a)
          (fun σ ha hσ => ?_) (fun σ ha hs => ?_)⟩
        · rw [ha.rep] at hσ
          exact (hca σ ha).trans hσ.symm
        · rw [ha.rep]
          exact (strict_holds hs).symm.trans (hca σ ha)
    | val b =>
      have heb : ∀ σ, Agrees σ t → e.under σ = b := fun σ ha => by
        rw [← ha.normalize e, he]; rfl
      cases sub with
      | true =>
        simp only [if_true]
        split_ifs with hab
        · right
          refine ⟨_, rfl, rfl, fun σ ha h => ?_⟩
          have h1 : c.under σ = true := h ((heb σ ha).trans hab.2)
          rw [hca σ ha, hab.1] at h1
          cases h1
        · left
          refine ⟨t, rfl, Does.same hw (fun σ ha h => ?_)⟩
          rw [heb σ ha] at h
          rw [hca σ ha]
          cases a
          · exact absurd ⟨rfl, h⟩ hab
          · rfl
      | false =>
        simp only [Bool.false_eq_true, if_false]
        split_ifs with hab
        · right
          refine ⟨_, rfl, rfl, fun σ ha h => hab ?_⟩
          rw [← hca σ ha, ← heb σ ha]
          exact h
        · left
          refine ⟨t, rfl, Does.same hw (fun σ ha => ?_)⟩
          show c.under σ = e.under σ
          rw [hca σ ha, heb σ ha]
          exact Decidable.not_not.mp hab

/-- The kind of the error of a constraint. -/
def kind : Con → What
  | .same _ _ => .equal
  | .atLeast _ _ => .mutable

theorem step_spec {t : Table} (hw : Wf t) (c : Con) :
    (∃ t', step t c = .ok t' ∧ Does t t' (fun σ => c.Holds σ) (fun σ => c.Strict σ)) ∨
    (step t c = .error (kind c) ∧ ∀ σ, Agrees σ t → ¬ c.Holds σ) := by
  cases c with
  | same c e =>
    rcases unify_spec hw c e false with h | ⟨w, h1, h2, h3⟩
    · exact .inl h
    · exact .inr ⟨by simp only [step, h1, h2]; rfl, h3⟩
  | atLeast c e =>
    rcases unify_spec hw c e true with h | ⟨w, h1, h2, h3⟩
    · exact .inl h
    · exact .inr ⟨by simp only [step, h1, h2]; rfl, h3⟩

theorem steps_spec : ∀ (cs : List Con) {t : Table}, Wf t →
    (∃ t', steps t cs = .ok t' ∧
      Does t t' (fun σ => ∀ c ∈ cs, c.Holds σ) (fun σ => ∀ c ∈ cs, c.Strict σ)) ∨
    (∃ c ∈ cs, steps t cs = .error (kind c) ∧
      ∀ σ, Agrees σ t → (∀ c ∈ cs, c.Strict σ) → False)
  | [], t, hw => .inl ⟨t, rfl, Does.same hw (fun _ _ => by simp)⟩
  | c :: cs, t, hw => by
    rcases step_spec hw c with ⟨t₁, h1, d1⟩ | ⟨h1, h2⟩
    · rcases steps_spec cs d1.wf with ⟨t₂, h3, d2⟩ | ⟨c', hc', h3, h4⟩
      · left
        refine ⟨t₂, by simp only [steps, h1, h3], d2.wf, fun σ ha => ?_, fun σ ha hs => ?_⟩
        · obtain ⟨ha1, hh⟩ := d2.sound σ ha
          obtain ⟨ha0, hh'⟩ := d1.sound σ ha1
          exact ⟨ha0, List.forall_mem_cons.mpr ⟨hh', hh⟩⟩
        · rw [List.forall_mem_cons] at hs
          exact d2.complete σ (d1.complete σ ha hs.1) hs.2
      · right
        refine ⟨c', List.mem_cons_of_mem _ hc', by simp only [steps, h1, h3], fun σ ha hs => ?_⟩
        rw [List.forall_mem_cons] at hs
        exact h4 σ (d1.complete σ ha hs.1) hs.2
    · right
      refine ⟨c, List.mem_cons_self, by simp only [steps, h1], fun σ ha hs => ?_⟩
      exact h2 σ ha (strict_holds (hs c List.mem_cons_self))

/-! ### What is left is constant -/

theorem close_step (t : Table) (x : Nat) :
    (match t.probe x with
      | some _ => t
      | none => (t.unifyValue x false).getD t) =
    if t.probe x = none then setValue t x false else t := by
  cases h : t.probe x with
  | some b => simp
  | none => simp [unifyValue_none h]

theorem closeFrom_spec : ∀ (n : Nat) (t : Table) (x : Nat), Wf t →
    Wf (closeFrom t x n) ∧
    (∀ σ, Agrees σ (closeFrom t x n) → Agrees σ t) ∧
    (∀ y b, t.probe y = some b → (closeFrom t x n).probe y = some b) ∧
    (∀ y, (closeFrom t x n).probe y = some true → t.probe y = some true) ∧
    (∀ y, x ≤ y → y < x + n → (closeFrom t x n).probe y ≠ none)
  | 0, t, x, hw => ⟨hw, fun _ h => h, fun _ _ h => h, fun _ h => h, fun y h1 h2 => by omega⟩
  | n + 1, t, x, hw => by
    have hcl : closeFrom t x (n + 1) =
        closeFrom (if t.probe x = none then setValue t x false else t) (x + 1) n := by
      rw [closeFrom]
      congr 1
      exact close_step t x
    rw [hcl]
    by_cases hx : t.probe x = none
    · rw [if_pos hx]
      obtain ⟨h1, h2, h3, h4, h5⟩ := closeFrom_spec n (setValue t x false) (x + 1) (setValue_wf hw x _)
      refine ⟨h1, fun σ h => ((setValue_agrees hx false).mp (h2 σ h)).1, fun y b hy => ?_,
        fun y hy => ?_, fun y hy1 hy2 => ?_⟩
      · refine h3 y b ?_
        rw [setValue_probe, if_neg]
        · exact hy
        · intro he
          simp only [Table.probe, he] at hy hx
          rw [hx] at hy
          cases hy
      · have := h4 y hy
        rw [setValue_probe] at this
        split_ifs at this
        · cases this
        · exact this
      · rcases Nat.eq_or_lt_of_le hy1 with rfl | hlt
        · rw [h3 x false (by rw [setValue_probe, if_pos rfl])]
          nofun
        · exact h5 y hlt (by omega)
    · rw [if_neg hx]
      obtain ⟨h1, h2, h3, h4, h5⟩ := closeFrom_spec n t (x + 1) hw
      refine ⟨h1, h2, h3, h4, fun y hy1 hy2 => ?_⟩
      rcases Nat.eq_or_lt_of_le hy1 with rfl | hlt
      · obtain ⟨b, hb⟩ := Option.ne_none_iff_exists'.mp hx
        rw [h3 x b hb]
        nofun
      · exact h5 y hlt (by omega)

/-- The assignment which is read from a table. -/
def Table.read (t : Table) : Nat → Bool := fun x => (t.probe x).getD false

theorem agrees_read {t : Table} (hw : Wf t) : Agrees t.read t :=
  ⟨fun x => by simp only [Table.read, hw.probe], fun x b h => by simp [Table.read, h]⟩

theorem read_some {t : Table} {x : Nat} (h : t.probe x ≠ none) : t.probe x = some (t.read x) := by
  obtain ⟨b, hb⟩ := Option.ne_none_iff_exists'.mp h
  simp [Table.read, hb]

/-- When everything has a value, constraints are only checked. -/
theorem normalize_closed {t : Table} {n : Nat} (h : ∀ y < n, t.probe y ≠ none) {m : MutTy}
    (hm : m.below n) : t.normalize m = .val (m.under t.read) := by
  cases m with
  | val b => rfl
  | var x => simp only [Table.normalize, read_some (h x hm), MutTy.under]

theorem step_closed {t : Table} {n : Nat} (h : ∀ y < n, t.probe y ≠ none) {c : Con}
    (hc : c.below n) {t' : Table} (hs : step t c = .ok t') : t' = t := by
  cases c with
  | same c e =>
    simp only [step, unify, normalize_closed h hc.1, normalize_closed h hc.2] at hs
    split_ifs at hs
    · cases hs
      rfl
    all_goals first | (cases hs; rfl) | cases hs
  | atLeast c e =>
    simp only [step, unify, normalize_closed h hc.1, normalize_closed h hc.2] at hs
    split_ifs at hs
    all_goals first | (cases hs; rfl) | cases hs

theorem steps_closed {t : Table} {n : Nat} (h : ∀ y < n, t.probe y ≠ none) : ∀ {cs : List Con},
    (∀ c ∈ cs, c.below n) → ∀ {t'}, steps t cs = .ok t' → t' = t
  | [], _, t', hs => by cases hs; rfl
  | c :: cs, hb, t', hs => by
    simp only [steps] at hs
    split at hs
    · rename_i t₁ h1
      rw [List.forall_mem_cons] at hb
      cases step_closed h hb.1 h1
      exact steps_closed h hb.2 hs
    · cases hs

/-- With values for all variables the constraints are accepted exactly when they hold. -/
theorem steps_closed_iff {t : Table} (hw : Wf t) : ∀ {cs : List Con}, (∃ n, (∀ y < n, t.probe y ≠ none) ∧
    ∀ c ∈ cs, c.below n) → ((∃ t', steps t cs = .ok t') ↔ ∀ c ∈ cs, c.Holds t.read)
  | [], _ => by simp [steps]
  | c :: cs, ⟨n, h, hb⟩ => by
    rw [List.forall_mem_cons] at hb ⊢
    rcases step_spec hw c with ⟨t₁, h1, d1⟩ | ⟨h1, h2⟩
    · cases step_closed h hb.1 h1
      rw [← steps_closed_iff hw ⟨n, h, hb.2⟩]
      simp only [steps, h1]
      exact ⟨fun h' => ⟨(d1.sound _ (agrees_read hw)).2, h'⟩, And.right⟩
    · simp only [steps, h1]
      exact ⟨fun h' => (by obtain ⟨_, h'⟩ := h'; cases h'),
        fun h' => absurd h'.1 (h2 _ (agrees_read hw))⟩

/-! ### Constraints which are not recorded -/

theorem unrecorded {t : Table} {c : Con} (h : recorded c = false) : step t c = .ok t := by
  cases c with
  | same c e =>
    simp only [recorded, ne_eq, decide_not, Bool.not_eq_false', decide_eq_true_eq] at h
    subst h
    simp only [step, unify]
    cases t.normalize c with
    | var r => simp [Table.unifyVars, orErr]
    | val b => simp
  | atLeast c e =>
    simp only [recorded, ne_eq, decide_not, Bool.and_eq_false_imp, Bool.not_eq_true',
      decide_eq_false_iff_not, Bool.not_eq_false', decide_eq_true_eq] at h
    simp only [step, unify]
    by_cases he : e = .val false
    · subst he
      have h1 : t.normalize (.val false) = .val false := rfl
      rw [h1]
      cases t.normalize c <;> simp [currentVar]
    · cases h he
      have h1 : t.normalize (.val true) = .val true := rfl
      rw [h1]
      cases t.normalize e <;> simp [targetVar]

theorem steps_recorded : ∀ (cs : List Con) (t : Table), steps t (cs.filter recorded) = steps t cs
  | [], _ => rfl
  | c :: cs, t => by
    cases h : recorded c with
    | false =>
      rw [List.filter_cons_of_neg (by simp [h]), steps_recorded cs t]
      simp only [steps, unrecorded h]
    | true =>
      rw [List.filter_cons_of_pos h]
      simp only [steps]
      cases step t c with
      | ok t' => exact steps_recorded cs t'
      | error w => rfl

end Ferlium.Mutability
