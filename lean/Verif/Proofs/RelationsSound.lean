import Verif.Proofs.RelationsFlow

/-
The facts of the relational analysis hold of every execution, as long as no comparison wraps around
and no field of an overwritten slot is named by its symbol on entry.
-/

namespace Ferlium.Relations

/-- The difference of two integers does not wrap around. -/
def Apart (x y : W) : Prop := -2 ^ 63 < x.toInt - y.toInt ∧ x.toInt - y.toInt < 2 ^ 63

/-- The comparisons an operation makes do not wrap around. -/
def Calm (op : Op) (m : Mem) : Prop :=
  match op with
  | .call .intCmp [a, b] _ => Apart (m.cell a.1).w (m.cell b.1).w
  | _ => True

/-- A state mentions a symbol. -/
def Mentions (st : State) (s : Symbol) : Prop :=
  (∃ q, st.current q = some s) ∨ (∃ g, st.facts s = some g) ∨
    (∃ t g, st.facts t = some g ∧ s ∈ g.syms) ∨ ∃ p ∈ st.known, s ∈ p.difference.syms

/-- The slots an operation gives new contents. -/
def Op.writes : Op → List Place
  | .storeConst _ dst | .storeReg _ dst | .buildArray _ dst | .memcpy _ dst | .move _ dst
  | .clone _ dst => [dst]
  | .call c args result =>
    result :: (if c = .arrayIndex then [] else (args.filter (·.2)).map (·.1))
  | _ => []

/-- The values of the symbols, given the contents each stored symbol names. -/
def ws (ρ : Place → Def → Val) : Symbol → W
  | .stored p d => (ρ p d).w
  | .reg _ => 0

/-- The contents a symbol names. -/
def valOf (ρ : Place → Def → Val) (m : Mem) : Symbol → Val
  | .stored p d => ρ p d
  | .reg r => m.reg r

/-- What a fact says of the contents its symbol names; nothing about uninitialised contents. -/
def FactSays (v : Symbol → W) (x : Val) : Fact → Prop
  | .value a => x.w = a.eval v
  | .ordering l r =>
    x = .tag (compareTag (l.eval v) (r.eval v)) ∧ Apart (l.eval v) (r.eval v)
  | .truth p => ∃ b, x = .bool b ∧ (b = true → p.Holds v) ∧ (b = false → p.negated.Holds v)

def FactHolds (v : Symbol → W) (x : Val) (g : Fact) : Prop := x = .junk ∨ FactSays v x g

/-- The state describes the memory. -/
structure Inv (f : Body) (ρ : Place → Def → Val) (m : Mem) (st : State) : Prop where
  agree : ∀ q s, f.escaped q.root = false → st.current q = some s →
    ∃ p d, s = .stored p d ∧ m.cell q = ρ p d
  absent : ∀ q, f.escaped q.root = false → st.current q = none →
    m.cell q = .junk ∨ m.cell q = ρ q .entry
  facts : ∀ s g, st.facts s = some g → FactHolds (ws ρ) (valOf ρ m s) g
  known : ∀ p ∈ st.known, p.Holds (ws ρ)

section
variable {rank : Symbol → Nat} {f : Body} {ρ : Place → Def → Val} {m m' : Mem} {st st' : State}

theorem w_int (w : W) : (Val.int w).w = w := rfl

theorem factHolds_congr {v v' : Symbol → W} {x : Val} {g : Fact} (h : ∀ s ∈ g.syms, v s = v' s)
    (hf : FactHolds v x g) : FactHolds v' x g := by
  rcases hf with hf | hf
  · exact .inl hf
  · right
    cases g with
    | value a => exact (show x.w = a.eval v from hf).trans (eval_congr h)
    | ordering l r =>
      have el := eval_congr (v := v) (v' := v') (a := l)
        (fun s hs => h s (List.mem_append_left _ hs))
      have er := eval_congr (v := v) (v' := v') (a := r)
        (fun s hs => h s (List.mem_append_right _ hs))
      simp only [FactSays] at hf ⊢
      rw [← el, ← er]
      exact hf
    | truth p =>
      obtain ⟨b, hb, h1, h2⟩ := hf
      exact ⟨b, hb, fun e => (holds_congr h).1 (h1 e),
        fun e => (holds_congr (fun s hs => h s (syms_negated hs))).1 (h2 e)⟩

/-! ### Reading -/

theorem Inv.symbolOf (hI : Inv f ρ m st) {p : Place} (he : f.escaped p.root = false)
    (hj : m.cell p ≠ .junk) : ∃ q d, st.symbolOf p = .stored q d ∧ ρ q d = m.cell p := by
  unfold State.symbolOf
  cases h : st.current p with
  | none =>
    exact ⟨p, .entry, rfl, ((hI.absent p he h).resolve_left hj).symm⟩
  | some s =>
    obtain ⟨q, d, rfl, e⟩ := hI.agree p s he h
    exact ⟨q, d, rfl, e.symm⟩

theorem Inv.fact_at (hI : Inv f ρ m st) {p : Place} (he : f.escaped p.root = false) {g : Fact}
    (hg : st.facts (st.symbolOf p) = some g) : FactHolds (ws ρ) (m.cell p) g := by
  by_cases hj : m.cell p = .junk
  · exact .inl hj
  · obtain ⟨q, d, hs, e⟩ := hI.symbolOf he hj
    have := hI.facts _ _ hg
    rw [hs] at this
    simpa [valOf, e] using this

theorem Inv.placeAffine (hI : Inv f ρ m st) {p : Place} (he : f.escaped p.root = false)
    (hj : m.cell p ≠ .junk) : (st.placeAffine p).eval (ws ρ) = (m.cell p).w := by
  unfold State.placeAffine
  split
  · rename_i a ha
    exact ((hI.fact_at he ha).resolve_left hj).symm
  · obtain ⟨q, d, hs, e⟩ := hI.symbolOf he hj
    rw [hs, eval_sym]
    simp [ws, e]

theorem Inv.copiedFact (hI : Inv f ρ m st) {p : Place} (he : f.escaped p.root = false) :
    FactHolds (ws ρ) (m.cell p) (copiedFact st p) := by
  unfold Relations.copiedFact
  cases h : st.facts (st.symbolOf p) with
  | some g => exact hI.fact_at he h
  | none =>
    by_cases hj : m.cell p = .junk
    · exact .inl hj
    · obtain ⟨q, d, hs, e⟩ := hI.symbolOf he hj
      right
      simp only [Option.getD_none, FactSays]
      rw [hs, eval_sym]
      simp [ws, e]

theorem tracked_some {p q : Place} (h : tracked f p = some q) :
    q = p ∧ f.escaped p.root = false := by
  unfold tracked at h
  split at h
  · rename_i x hx
    split at h
    · simp at h
    · rename_i hne
      simp only [Option.some.injEq] at h; subst h
      unfold placeOf at hx
      split at hx
      · simp only [Option.some.injEq] at hx; subst hx
        exact ⟨rfl, by simpa using hne⟩
      · split at hx
        · simp at hx
        · simp only [Option.some.injEq] at hx; subst hx
          exact ⟨rfl, by simpa using hne⟩
  · simp at h

theorem tracked_of {p : Place} (h : f.escaped p.root = false) : tracked f p = some p := by
  unfold tracked placeOf
  split
  · rename_i x hx
    split at hx <;> simp_all
  · rename_i hx
    split at hx <;> simp_all

theorem tracked_none {p : Place} (h : tracked f p = none) : f.escaped p.root = true := by
  by_contra hc
  rw [tracked_of (by simpa using hc)] at h
  simp at h

/-- No parameter is given to an unknown callee by mutable reference. -/
def ParamsKept (f : Body) : Prop := ∀ id, f.escaped (.param id) = false

theorem placeOf_some (hk : ParamsKept f) {p q : Place} (h : placeOf f p = some q) :
    q = p ∧ f.escaped p.root = false := by
  unfold placeOf at h
  split at h
  · rename_i id hr _
    simp only [Option.some.injEq] at h
    exact ⟨h.symm, by rw [hr]; exact hk id⟩
  · split at h
    · simp at h
    · rename_i hne
      simp only [Option.some.injEq] at h
      exact ⟨h.symm, by simpa using hne⟩

theorem Inv.argumentAffine (hk : ParamsKept f) (hI : Inv f ρ m st) {p : Place} {a : Affine}
    (h : argumentAffine f st p = some a) (hj : m.cell p ≠ .junk) :
    a.eval (ws ρ) = (m.cell p).w := by
  unfold Relations.argumentAffine at h
  simp only [Option.map_eq_some_iff] at h
  obtain ⟨q, hq, rfl⟩ := h
  obtain ⟨rfl, he⟩ := placeOf_some hk hq
  exact hI.placeAffine he hj

/-! ### Writing -/

/-- The contents named by a symbol once `d` names what has just been written. -/
def newVal (ρ : Place → Def → Val) (m' : Mem) (d : Def) : Symbol → Val
  | .stored p e => if e = d then m'.cell p else ρ p e
  | .reg r => m'.reg r

/-- How the current symbols change when the slots in `T` are written. -/
def CurChange (f : Body) (d : Def) (T : Place → Prop) (st st' : State) : Prop :=
  ∀ q, f.escaped q.root = false → st'.current q = some (.stored q d) ∨
    (st'.current q = none ∧ T q) ∨ (st'.current q = st.current q ∧ ¬T q)

theorem CurChange.trans {d : Def} {T T' : Place → Prop} {st₁ : State}
    (h : CurChange f d T st st₁) (h' : CurChange f d T' st₁ st') :
    CurChange f d (fun q => T q ∨ T' q) st st' := by
  intro q hq
  rcases h' q hq with h2 | ⟨h2, h3⟩ | ⟨h2, h3⟩
  · exact .inl h2
  · exact .inr (.inl ⟨h2, .inr h3⟩)
  · rcases h q hq with h4 | ⟨h4, h5⟩ | ⟨h4, h5⟩
    · exact .inl (h2.trans h4)
    · exact .inr (.inl ⟨h2.trans h4, .inl h5⟩)
    · exact .inr (.inr ⟨h2.trans h4, fun h => h.elim h5 h3⟩)

theorem CurChange.refl (f : Body) (d : Def) (st : State) : CurChange f d (fun _ => False) st st :=
  fun _ _ => .inr (.inr ⟨rfl, id⟩)

theorem covers_self (p : Place) : p.covers p = true := by simp [Place.covers]

theorem covers_root {p q : Place} (h : p.covers q = true) : p.root = q.root := by
  simp only [Place.covers, Bool.and_eq_true, beq_iff_eq] at h
  exact h.1

theorem define_cur (d : Def) (p : Place) (o : Option Fact) :
    CurChange f d (fun q => p.covers q = true) st (st.define p d o) := by
  intro q _
  unfold State.define State.setFact
  by_cases hqp : q = p
  · subst hqp; exact .inl (by simp)
  · simp only [if_neg hqp]
    by_cases hc : p.covers q = true
    · have hi : p.inside q = true := by
        simp only [Place.inside, hc, Bool.true_and, bne_iff_ne, ne_eq]
        exact fun h => hqp h.symm
      rw [if_pos hi]
      exact .inr (.inl ⟨rfl, hc⟩)
    · have hi : ¬p.inside q = true := by
        simp only [Place.inside, Bool.and_eq_true, not_and]
        exact fun h => absurd h hc
      rw [if_neg hi]
      exact .inr (.inr ⟨rfl, hc⟩)

theorem define_facts {d : Def} {p : Place} {o : Option Fact} {s : Symbol} {g : Fact}
    (h : (st.define p d o).facts s = some g) :
    (s = .stored p d ∧ o = some g) ∨ st.facts s = some g := by
  unfold State.define State.setFact at h
  simp only at h
  split at h
  · rename_i e; exact .inl ⟨e, h⟩
  · exact .inr h

theorem copy_cur (d : Def) (src : Option Place) (dst : Place) :
    CurChange f d (fun q => dst.covers q = true) st (st.copy src dst d) := by
  unfold State.copy
  split
  · exact define_cur d dst none
  · rename_i s
    intro q hq
    simp only
    split
    · exact .inl rfl
    · exact define_cur (f := f) (st := st) d dst (some (copiedFact st s)) q hq

/-- The contents the symbols name once the slots in `T` are written at `d`. -/
theorem inv_effect {d : Def} {T : Place → Prop} (hI : Inv f ρ m st)
    (hW : Within (fun _ => True) (fun e => e ≠ d) st) (hd : d ≠ .entry)
    (hcur : CurChange f d T st st')
    (hmem : ∀ q, f.escaped q.root = false → ¬T q → m'.cell q = m.cell q)
    (hT : ∀ q, f.escaped q.root = false → T q → st'.current q = none →
      m'.cell q = .junk ∨ ¬Mentions st' (.stored q .entry))
    (hfacts : ∀ s g, st'.facts s = some g →
      (st.facts s = some g ∧ ∀ r, s = .reg r → m'.reg r = m.reg r) ∨
      ((∀ x ∈ g.syms, SymIn (fun _ => True) (fun e => e ≠ d) x) ∧ FactHolds (ws ρ) (newVal ρ m' d s) g))
    (hknown : ∀ p ∈ st'.known, p ∈ st.known ∨
      ((∀ x ∈ p.difference.syms, SymIn (fun _ => True) (fun e => e ≠ d) x) ∧ p.Holds (ws ρ))) :
    ∃ ρ', Inv f ρ' m' st' := by
  classical
  let Z (q : Place) : Prop := T q ∧ st'.current q = none ∧ ¬Mentions st' (.stored q .entry)
  let ρ' (p : Place) (e : Def) : Val :=
    if e = d then m'.cell p else if e = .entry ∧ Z p then m'.cell p else ρ p e
  have old : ∀ p e, e ≠ d → Mentions st' (.stored p e) → ρ' p e = ρ p e := by
    intro p e he hm
    simp only [ρ']
    rw [if_neg he, if_neg]
    rintro ⟨rfl, hz⟩
    exact hz.2.2 hm
  have oldw : ∀ x, SymIn (fun _ => True) (fun e => e ≠ d) x → Mentions st' x → ws ρ x = ws ρ' x := by
    rintro x ⟨p, e, rfl, he⟩ hm
    have he' : e ≠ d := by
      rcases he with ⟨rfl, _⟩ | he
      · exact fun h => hd h.symm
      · exact he
    simp only [ws]
    rw [old p e he' hm]
  refine ⟨ρ', ?_, ?_, ?_, ?_⟩
  · intro q s hq hs
    rcases hcur q hq with h | ⟨h, _⟩ | ⟨h, hnt⟩
    · rw [hs] at h
      simp only [Option.some.injEq] at h; subst h
      exact ⟨q, d, rfl, by simp [ρ']⟩
    · rw [hs] at h; simp at h
    · rw [hs] at h
      obtain ⟨p, e, rfl, hv⟩ := hI.agree q s hq h.symm
      obtain ⟨p', e', he, hne⟩ := hW.cur q _ h.symm
      cases he
      have hed : e ≠ d := hne
      exact ⟨p, e, rfl, by rw [old p e hed (.inl ⟨q, hs⟩), hmem q hq hnt, hv]⟩
  · intro q hq hn
    rcases hcur q hq with h | ⟨h, ht⟩ | ⟨h, hnt⟩
    · rw [hn] at h; simp at h
    · rcases hT q hq ht hn with hj | hm
      · exact .inl hj
      · right
        simp only [ρ']
        rw [if_neg (fun h => hd h.symm), if_pos ⟨trivial, ht, hn, hm⟩]
    · have hold := hI.absent q hq (h.symm.trans hn)
      rw [hmem q hq hnt]
      refine hold.imp id fun e => ?_
      simp only [ρ']
      rw [if_neg (fun h => hd h.symm), if_neg (fun hz => hnt hz.2.1)]
      exact e
  · intro s g hg
    have hmkey : Mentions st' s := .inr (.inl ⟨g, hg⟩)
    have hmsym : ∀ x ∈ g.syms, Mentions st' x := fun x hx => .inr (.inr (.inl ⟨s, g, hg, hx⟩))
    have hv : ∀ s', Mentions st' s' → valOf ρ' m' s' = newVal ρ m' d s' := by
      intro s' hm
      cases s' with
      | reg r => rfl
      | stored p e =>
        simp only [valOf, newVal]
        split
        · rename_i he; simp [ρ', he]
        · rename_i he; exact old p e he hm
    rw [hv s hmkey]
    rcases hfacts s g hg with ⟨ho, hr⟩ | ⟨hsy, hf⟩
    · have h1 := hI.facts s g ho
      have h2 : newVal ρ m' d s = valOf ρ m s := by
        cases s with
        | reg r => exact hr r rfl
        | stored p e =>
          simp only [newVal, valOf]
          rw [if_neg (hW.key p e g ho)]
      rw [h2]
      exact factHolds_congr (fun x hx => oldw x (hW.fact s g ho x hx) (hmsym x hx)) h1
    · exact factHolds_congr (fun x hx => oldw x (hsy x hx) (hmsym x hx)) hf
  · intro p hp
    have hm : ∀ x ∈ p.difference.syms, Mentions st' x :=
      fun x hx => .inr (.inr (.inr ⟨p, hp, hx⟩))
    rcases hknown p hp with ho | ⟨hsy, hh⟩
    · exact (holds_congr (fun x hx => oldw x (hW.known p ho x hx) (hm x hx))).1 (hI.known p ho)
    · exact (holds_congr (fun x hx => oldw x (hsy x hx) (hm x hx))).1 hh

/-- Memory changes only where nothing is tracked. -/
theorem inv_frame (hI : Inv f ρ m st) (hr : m'.reg = m.reg)
    (hm : ∀ q, f.escaped q.root = false → m'.cell q = m.cell q) : Inv f ρ m' st where
  agree q s hq hs := by rw [hm q hq]; exact hI.agree q s hq hs
  absent q hq hs := by rw [hm q hq]; exact hI.absent q hq hs
  facts s g hg := by
    have := hI.facts s g hg
    cases s with
    | reg r => simpa [valOf, hr] using this
    | stored p e => simpa [valOf] using this
  known := hI.known

/-- A register receives a value. -/
theorem inv_reg {d : Def} (hI : Inv f ρ m st) (hW : Within (fun _ => True) (fun e => e ≠ d) st) (hd : d ≠ .entry)
    {r : Nat} {x : Val} {o : Option Fact}
    (ho : ∀ g, o = some g → (∀ y ∈ g.syms, SymIn (fun _ => True) (fun e => e ≠ d) y) ∧ FactHolds (ws ρ) x g) :
    ∃ ρ', Inv f ρ' { m with reg := fun y => if y = r then x else m.reg y }
      (st.setFact (.reg r) o) := by
  apply inv_effect (T := fun _ => False) hI hW hd
  · exact CurChange.refl f d st
  · intro q _ _; rfl
  · intro q _ h; exact absurd h id
  · intro s g hg
    simp only [State.setFact] at hg
    split at hg
    · rename_i e; subst e
      right
      simpa [newVal] using ho g hg
    · rename_i hne
      left
      refine ⟨hg, fun r' e => ?_⟩
      subst e
      simp only
      rw [if_neg (fun h => hne (by rw [h]))]
  · intro p hp; exact .inl hp

/-- One slot is written. -/
theorem inv_define {d : Def} (hI : Inv f ρ m st) (hW : Within (fun _ => True) (fun e => e ≠ d) st)
    (hd : d ≠ .entry) {p : Place} {o : Option Fact} (hr : m'.reg = m.reg)
    (hs : SameExcept (fun q => p.covers q = true) m m')
    (hT : ∀ q, f.escaped q.root = false → p.covers q = true →
      (st.define p d o).current q = none →
      m'.cell q = .junk ∨ ¬Mentions (st.define p d o) (.stored q .entry))
    (ho : ∀ g, o = some g →
      (∀ y ∈ g.syms, SymIn (fun _ => True) (fun e => e ≠ d) y) ∧ FactHolds (ws ρ) (m'.cell p) g) :
    ∃ ρ', Inv f ρ' m' (st.define p d o) := by
  apply inv_effect (T := fun q => p.covers q = true) hI hW hd
  · exact define_cur d p o
  · intro q _ h; exact hs q h
  · exact hT
  · intro s g hg
    rcases define_facts hg with ⟨rfl, h⟩ | h
    · right; simpa [newVal] using ho g h
    · left; exact ⟨h, fun r _ => by rw [hr]⟩
  · intro q hq; exact .inl hq

/-! ### One operation -/

theorem down_drop {p q : Place} (h : p.covers q = true) :
    p.down (q.path.drop p.path.length) = q := by
  simp only [Place.covers, Bool.and_eq_true, beq_iff_eq, List.isPrefixOf_iff_prefix] at h
  obtain ⟨hr, t, ht⟩ := h
  rcases q with ⟨root, path⟩
  simp only at hr ht
  subst ht
  simp [Place.down, hr]

theorem down_nil (p : Place) : p.down [] = p := by
  rcases p with ⟨r, path⟩; simp [Place.down]

theorem copy_facts {d : Def} {src : Option Place} {dst : Place} {s : Symbol} {g : Fact}
    (h : (st.copy src dst d).facts s = some g) :
    st.facts s = some g ∨ ∃ q p, src = some p ∧ dst.covers q = true ∧ s = .stored q d ∧
      g = copiedFact st (p.down (q.path.drop dst.path.length)) := by
  unfold State.copy at h
  split at h
  · rcases define_facts h with ⟨_, h⟩ | h
    · simp at h
    · exact .inl h
  · rename_i p
    have base : ∀ t, (st.define dst d (some (copiedFact st p))).facts t = some g →
        st.facts t = some g ∨ ∃ q p', some p = some p' ∧ dst.covers q = true ∧ t = .stored q d ∧
          g = copiedFact st (p'.down (q.path.drop dst.path.length)) := by
      intro t ht
      rcases define_facts ht with ⟨e, ho⟩ | ho
      · right
        refine ⟨dst, p, rfl, covers_self dst, e, ?_⟩
        simp only [Option.some.injEq] at ho
        simp [down_nil, ho]
      · exact .inl ho
    cases s with
    | reg r => exact base (.reg r) h
    | stored q d' =>
      simp only at h
      split at h
      · rename_i hc
        right
        simp only [Option.some.injEq] at h
        refine ⟨q, p, rfl, ?_, by rw [hc.1], h.symm⟩
        have := hc.2
        simp only [Place.inside, Bool.and_eq_true] at this
        exact this.1.1
      · exact base _ h

theorem copy_known {d : Def} {src : Option Place} {dst : Place} :
    (st.copy src dst d).known = st.known := by
  unfold State.copy
  split <;> rfl

theorem define_known {d : Def} {p : Place} {o : Option Fact} :
    (st.define p d o).known = st.known := rfl

theorem not_covers_escaped {p q : Place} (hp : f.escaped p.root = true)
    (hq : f.escaped q.root = false) : ¬p.covers q = true := by
  intro h
  rw [covers_root h, hq] at hp
  simp at hp

theorem cur_dst_opt (d : Def) (src : Option Place) (dst : Place) :
    CurChange f d (fun q => dst.covers q = true) st
      (match tracked f dst with
        | some q => st.copy src q d
        | none => st) := by
  cases h : tracked f dst with
  | some q =>
    obtain ⟨rfl, _⟩ := tracked_some h
    exact copy_cur d src q
  | none =>
    intro q hq
    exact .inr (.inr ⟨rfl, not_covers_escaped (tracked_none h) hq⟩)

theorem cur_define_opt (d : Def) (p : Place) (o : Option Fact) :
    CurChange f d (fun q => p.covers q = true) st
      (match tracked f p with
        | some q => st.define q d o
        | none => st) := by
  cases h : tracked f p with
  | some q =>
    obtain ⟨rfl, _⟩ := tracked_some h
    exact define_cur d q o
  | none =>
    intro q hq
    exact .inr (.inr ⟨rfl, not_covers_escaped (tracked_none h) hq⟩)

theorem copied_holds (hI : Inv f ρ m st) {dst p q : Place} {src : Place}
    (hp : tracked f src = some p) (hc : dst.covers q = true)
    (hv : ∀ t, m'.cell (dst.down t) = m.cell (src.down t)) :
    FactHolds (ws ρ) (m'.cell q) (copiedFact st (p.down (q.path.drop dst.path.length))) := by
  obtain ⟨rfl, he⟩ := tracked_some hp
  have hq : m'.cell q = m.cell (p.down (q.path.drop dst.path.length)) := by
    rw [← hv, down_drop hc]
  rw [hq]
  exact hI.copiedFact he

theorem forget_plain {c : Callee} {d : Def} : ∀ (args : List (Place × Bool)),
    (∀ a ∈ args, a.2 = false) → forgetArgs f c d args st = st := by
  intro args h
  unfold forgetArgs
  split
  · rfl
  · induction args generalizing st with
    | nil => rfl
    | cons a args ih =>
      rw [List.foldl_cons]
      rw [h a List.mem_cons_self]
      exact ih (fun x hx => h x (List.mem_cons_of_mem a hx))

theorem compare_less (x y : W) : (compareTag x y = "Less") ↔ x.slt y = true := by
  unfold compareTag
  split
  · simp_all
  · split <;> simp_all

theorem compare_equal (x y : W) : (compareTag x y = "Equal") ↔ x = y := by
  unfold compareTag
  split
  · rename_i h
    constructor
    · intro h'; simp at h'
    · intro e; subst e; rw [slt_iff] at h; omega
  · split <;> simp_all

theorem compare_greater (x y : W) : (compareTag x y = "Greater") ↔ y.slt x = true := by
  unfold compareTag
  split
  · rename_i h
    rw [slt_iff] at h
    constructor
    · intro h'; simp at h'
    · intro h'; rw [slt_iff] at h'; omega
  · rename_i h
    split
    · rename_i e; subst e; simp [h]
    · rename_i hne
      simp only [true_iff]
      rw [slt_iff] at h ⊢
      have : x.toInt ≠ y.toInt := fun e => hne (BitVec.eq_of_toInt_eq e)
      omega

theorem apart_less {x y : W} (h : Apart x y) : (x - y).slt 0 = true ↔ x.slt y = true := by
  rw [slt_iff, slt_iff, toInt_zero]
  have := toInt_sub x y
  unfold Apart at h
  omega

theorem apart_swap {x y : W} (h : Apart x y) : Apart y x := by
  unfold Apart at *; omega

/-- What `comp_eq` on a comparison's result decides. -/
theorem truth_between {l r : Affine} {c : Comparison} {p : Predicate} {b : Bool}
    {v : Symbol → W} (hp : between rank l c r = some p)
    (h : b = true ↔ c.Zero (l.eval v - r.eval v)) : FactSays v (.bool b) (.truth p) := by
  obtain ⟨e1, e2⟩ := eval_between (v := v) hp
  have hh : p.Holds v ↔ b = true := by
    unfold Predicate.Holds
    rw [e1, e2, h]
  refine ⟨b, rfl, hh.2, fun hb => negated_sound (fun hc => ?_)⟩
  rw [hb] at hh
  exact absurd (hh.1 hc) (by simp)

theorem comparison_holds {l r : Affine} {x : Val} {tag : String} {v : Symbol → W} {g : Fact}
    (hx : FactSays v x (.ordering l r))
    (h : (if tag = "Less" then (between rank l .less r).map Fact.truth
      else if tag = "Greater" then (between rank r .less l).map Fact.truth
      else if tag = "Equal" then (between rank l .equal r).map Fact.truth
      else none) = some g) :
    FactSays v (.bool (x == .tag tag)) g := by
  obtain ⟨rfl, ha⟩ := hx
  have hb : ((Val.tag (compareTag (l.eval v) (r.eval v)) == .tag tag) = true) ↔
      compareTag (l.eval v) (r.eval v) = tag := by simp
  split at h
  · rename_i ht; subst ht
    simp only [Option.map_eq_some_iff] at h
    obtain ⟨p, hp, rfl⟩ := h
    exact truth_between hp (hb.trans ((compare_less _ _).trans (apart_less ha).symm))
  · split at h
    · rename_i ht; subst ht
      simp only [Option.map_eq_some_iff] at h
      obtain ⟨p, hp, rfl⟩ := h
      exact truth_between hp
        (hb.trans ((compare_greater _ _).trans (apart_less (apart_swap ha)).symm))
    · split at h
      · rename_i ht; subst ht
        simp only [Option.map_eq_some_iff] at h
        obtain ⟨p, hp, rfl⟩ := h
        exact truth_between hp
          (hb.trans ((compare_equal _ _).trans (sub_eq_zero (a := l.eval v)).symm))
      · simp at h

theorem argAffine_eval (hk : ParamsKept f) (hI : Inv f ρ m st) {args : List (Place × Bool)}
    {i : Nat} {a : Place × Bool} {x : Affine} (ha : args[i]? = some a)
    (hj : m.cell a.1 ≠ .junk) (h : argAffine f st args i = some x) :
    x.eval (ws ρ) = (m.cell a.1).w := by
  unfold argAffine at h
  rw [ha] at h
  exact hI.argumentAffine hk h hj

/-- The result of a call of known meaning is what the analysis says of it. -/
theorem result_says (hk : ParamsKept f) (hI : Inv f ρ m st) {c : Callee}
    {args : List (Place × Bool)} {result : Place} {v : Val} {g : Fact}
    (hc : Calm (.call c args result) m) (hj : ∀ p ∈ callReads c args, m.cell p ≠ .junk)
    (hv : callValue m c args = some v) (hg : resultFact rank f st c args = some g) :
    FactSays (ws ρ) v g := by
  cases c
  case intAdd =>
    rcases args with _ | ⟨a, _ | ⟨b, _ | ⟨x, t⟩⟩⟩ <;> simp [callValue] at hv
    subst hv
    have ja : m.cell a.1 ≠ .junk := hj _ (by simp [callReads])
    have jb : m.cell b.1 ≠ .junk := hj _ (by simp [callReads])
    simp only [resultFact] at hg
    split at hg
    · rename_i l r hl hr
      simp only [Option.map_eq_some_iff] at hg
      obtain ⟨s, hs, rfl⟩ := hg
      simp only [FactSays, w_int]
      rw [eval_add hs, argAffine_eval hk hI (by simp) ja hl, argAffine_eval hk hI (by simp) jb hr]
    · simp at hg
  case intSub =>
    rcases args with _ | ⟨a, _ | ⟨b, _ | ⟨x, t⟩⟩⟩ <;> simp [callValue] at hv
    subst hv
    have ja : m.cell a.1 ≠ .junk := hj _ (by simp [callReads])
    have jb : m.cell b.1 ≠ .junk := hj _ (by simp [callReads])
    simp only [resultFact] at hg
    split at hg
    · rename_i l r hl hr
      simp only [Option.map_eq_some_iff] at hg
      obtain ⟨s, hs, rfl⟩ := hg
      simp only [FactSays, w_int]
      rw [eval_sub hs, argAffine_eval hk hI (by simp) ja hl, argAffine_eval hk hI (by simp) jb hr]
    · simp at hg
  case intMul =>
    rcases args with _ | ⟨a, _ | ⟨b, _ | ⟨x, t⟩⟩⟩ <;> simp [callValue] at hv
    subst hv
    have ja : m.cell a.1 ≠ .junk := hj _ (by simp [callReads])
    have jb : m.cell b.1 ≠ .junk := hj _ (by simp [callReads])
    simp only [resultFact] at hg
    split at hg
    · rename_i l r hl hr
      simp only [Option.map_eq_some_iff] at hg
      obtain ⟨s, hs, rfl⟩ := hg
      simp only [FactSays, w_int]
      rw [eval_mul hs, argAffine_eval hk hI (by simp) ja hl, argAffine_eval hk hI (by simp) jb hr]
    · simp at hg
  case intNeg =>
    rcases args with _ | ⟨a, _ | ⟨b, t⟩⟩ <;> simp [callValue] at hv
    subst hv
    have ja : m.cell a.1 ≠ .junk := hj _ (by simp [callReads])
    simp only [resultFact, Option.map_eq_some_iff] at hg
    obtain ⟨l, hl, rfl⟩ := hg
    simp only [FactSays, w_int]
    rw [eval_scale, argAffine_eval hk hI (by simp) ja hl]
    ring
  case intFromInt =>
    rcases args with _ | ⟨a, _ | ⟨b, t⟩⟩ <;> simp [callValue] at hv
    subst hv
    have ja : m.cell a.1 ≠ .junk := hj _ (by simp [callReads])
    simp only [resultFact, Option.map_eq_some_iff] at hg
    obtain ⟨l, hl, rfl⟩ := hg
    simp only [FactSays, w_int]
    rw [argAffine_eval hk hI (by simp) ja hl]
  case intCmp =>
    rcases args with _ | ⟨a, _ | ⟨b, _ | ⟨x, t⟩⟩⟩ <;> simp [callValue] at hv
    subst hv
    have ja : m.cell a.1 ≠ .junk := hj _ (by simp [callReads])
    have jb : m.cell b.1 ≠ .junk := hj _ (by simp [callReads])
    simp only [resultFact] at hg
    split at hg
    · rename_i l r hl hr
      simp only [Option.some.injEq] at hg
      subst hg
      simp only [FactSays]
      rw [argAffine_eval hk hI (by simp) ja hl, argAffine_eval hk hI (by simp) jb hr]
      exact ⟨rfl, hc⟩
    · simp at hg
  case arrayLen =>
    rcases args with _ | ⟨a, _ | ⟨b, t⟩⟩ <;> simp [callValue] at hv
    subst hv
    have ja : m.cell (a.1.field lenField) ≠ .junk := hj _ (by simp [callReads])
    simp only [resultFact, List.getElem?_cons_zero, Option.map_eq_some_iff] at hg
    obtain ⟨p, hp, rfl⟩ := hg
    obtain ⟨rfl, he⟩ := tracked_some hp
    simp only [FactSays, w_int]
    rw [hI.placeAffine (p := a.1.field lenField) he ja]
  all_goals simp [callValue] at hv

theorem forget_cur {c : Callee} {d : Def} (hc : c ≠ .arrayIndex) :
    ∀ (args : List (Place × Bool)) (st : State),
    CurChange f d (fun q => ∃ a ∈ args, a.2 = true ∧ a.1.covers q = true) st
      (forgetArgs f c d args st) := by
  intro args
  unfold forgetArgs
  simp only [if_neg hc]
  induction args with
  | nil => intro st q _; exact .inr (.inr ⟨rfl, by simp⟩)
  | cons a args ih =>
    intro st
    rw [List.foldl_cons]
    have h1 : CurChange f d (fun q => a.2 = true ∧ a.1.covers q = true) st
        (match a.2, tracked f a.1 with
          | true, some p => st.define p d none
          | _, _ => st) := by
      rcases a with ⟨p, b⟩
      cases b with
      | false => intro q _; exact .inr (.inr ⟨rfl, by simp⟩)
      | true =>
        intro q hq
        have := cur_define_opt (f := f) (st := st) d p none q hq
        cases ht : tracked f p with
        | none => rw [ht] at this; simpa using this
        | some p' => rw [ht] at this; simpa using this
    have h2 := h1.trans (ih _)
    intro q hq
    rcases h2 q hq with h | ⟨h, h3⟩ | ⟨h, h3⟩
    · exact .inl h
    · refine .inr (.inl ⟨h, ?_⟩)
      rcases h3 with h3 | ⟨x, hx, h3⟩
      · exact ⟨a, List.mem_cons_self, h3⟩
      · exact ⟨x, List.mem_cons_of_mem a hx, h3⟩
    · refine .inr (.inr ⟨h, ?_⟩)
      rintro ⟨x, hx, h4⟩
      rcases List.mem_cons.1 hx with rfl | hx
      · exact h3 (.inl h4)
      · exact h3 (.inr ⟨x, hx, h4⟩)

theorem forget_facts {c : Callee} {d : Def} : ∀ (args : List (Place × Bool)) (st : State)
    {s : Symbol} {g : Fact}, (forgetArgs f c d args st).facts s = some g → st.facts s = some g := by
  intro args
  unfold forgetArgs
  split
  · intro st s g h; exact h
  · induction args with
    | nil => intro st s g h; exact h
    | cons a args ih =>
      intro st s g h
      rw [List.foldl_cons] at h
      have := ih _ h
      split at this
      · rcases define_facts this with ⟨_, h⟩ | h
        · simp at h
        · exact h
      · exact this

theorem forget_known {c : Callee} {d : Def} : ∀ (args : List (Place × Bool)) (st : State),
    (forgetArgs f c d args st).known = st.known := by
  intro args
  unfold forgetArgs
  split
  · intro st; rfl
  · induction args with
    | nil => intro st; rfl
    | cons a args ih =>
      intro st
      rw [List.foldl_cons, ih]
      split <;> rfl

/-- No field of a slot the operation writes is named by its symbol on entry afterwards. -/
def NoStale (rank : Symbol → Nat) (f : Body) (op : Op) (d : Def) (st : State) : Prop :=
  ∀ p ∈ op.writes, ∀ q, f.escaped q.root = false → p.covers q = true →
    (transfer rank f op d st).current q = none →
    ¬Mentions (transfer rank f op d st) (.stored q .entry)

/-- A call of unknown meaning, whether it succeeds or fails. -/
theorem inv_other {d : Def} {k : Bool} {args : List (Place × Bool)} {result : Place}
    (hI : Inv f ρ m st) (hW : Within (fun _ => True) (fun e => e ≠ d) st) (hd : d ≠ .entry)
    (hF : NoStale rank f (.call (.other k) args result) d st) (hr : m'.reg = m.reg)
    (hs : SameExcept (CallWrites f args result) m m') :
    ∃ ρ', Inv f ρ' m' (transfer rank f (.call (.other k) args result) d st) := by
  have hne : Callee.other k ≠ .arrayIndex := by simp
  have hcur := (forget_cur (f := f) (d := d) hne args st).trans
    (cur_define_opt (f := f) d result none)
  have heq : transfer rank f (.call (.other k) args result) d st =
      (match tracked f result with
        | some p => (forgetArgs f (.other k) d args st).define p d none
        | none => forgetArgs f (.other k) d args st) := by
    simp only [transfer, resultFact]
    cases tracked f result <;> rfl
  rw [← heq] at hcur
  apply inv_effect (T := _) hI hW hd hcur
  · intro q hq hn
    apply hs q
    rintro (h | h | h)
    · exact hn (.inr h)
    · exact hn (.inl h)
    · rw [hq] at h; simp at h
  · intro q hq ht hnone
    right
    rcases ht with ⟨a, ha, h1, h2⟩ | h
    · refine hF a.1 ?_ q hq h2 hnone
      simp only [Op.writes, if_neg hne, List.mem_cons, List.mem_map, List.mem_filter]
      exact .inr ⟨a, ⟨ha, h1⟩, rfl⟩
    · exact hF result (by simp [Op.writes]) q hq h hnone
  · intro s g hg
    left
    refine ⟨?_, fun r _ => by rw [hr]⟩
    rw [heq] at hg
    split at hg
    · rcases define_facts hg with ⟨_, h⟩ | h
      · simp at h
      · exact forget_facts args st h
    · exact forget_facts args st hg
  · intro p hp
    left
    rw [heq] at hp
    split at hp
    · rw [define_known, forget_known] at hp; exact hp
    · rw [forget_known] at hp; exact hp

/-- A result is written by a call which forgets no argument. -/
theorem inv_result {d : Def} {c : Callee} {args : List (Place × Bool)} {result : Place}
    (hI : Inv f ρ m st) (hW : Within (fun _ => True) (fun e => e ≠ d) st) (hd : d ≠ .entry)
    (hF : NoStale rank f (.call c args result) d st) (hr : m'.reg = m.reg)
    (hforget : forgetArgs f c d args st = st)
    (hs : SameExcept (fun q => result.covers q = true) m m')
    (hv : ∀ g, resultFact rank f st c args = some g → FactHolds (ws ρ) (m'.cell result) g) :
    ∃ ρ', Inv f ρ' m' (transfer rank f (.call c args result) d st) := by
  have hF' := hF result (by simp [Op.writes])
  unfold NoStale at hF
  simp only [transfer, hforget] at hF' ⊢
  cases ht : tracked f result with
  | none =>
    refine ⟨ρ, inv_frame hI hr fun q hq => hs q ?_⟩
    exact not_covers_escaped (tracked_none ht) hq
  | some p =>
    obtain ⟨rfl, he⟩ := tracked_some ht
    rw [ht] at hF'
    refine inv_define hI hW hd hr hs (fun q hq hc hn => .inr (hF' q hq hc hn)) ?_
    intro g hg
    exact ⟨within_resultFact hW (fun _ _ => trivial) (fun _ _ _ => trivial) hg, hv g hg⟩

/-- An operation which succeeds leaves a memory the state after it describes. -/
theorem inv_op {op : Op} {d : Def} (hk : ParamsKept f) (hI : Inv f ρ m st)
    (hW : Within (fun _ => True) (fun e => e ≠ d) st) (hd : d ≠ .entry) (hc : Calm op m)
    (hF : NoStale rank f op d st) (hs : OpStep f op m m') :
    ∃ ρ', Inv f ρ' m' (transfer rank f op d st) := by
  cases hs with
  | @alloca id _ _ hr hj hs =>
    simp only [transfer]
    split
    · rename_i he
      exact ⟨ρ, inv_frame hI hr fun q hq => hs q
        (not_covers_escaped (p := ⟨.alloca id, []⟩) he hq)⟩
    · exact inv_define hI hW hd hr hs (fun q _ hc _ => .inl (hj q hc)) (by simp)
  | @storeConst w dst _ _ hr hv hs =>
    have hF' := hF dst (by simp [Op.writes])
    simp only [transfer] at hF' ⊢
    cases ht : tracked f dst with
    | none =>
      exact ⟨ρ, inv_frame hI hr fun q hq => hs q (not_covers_escaped (tracked_none ht) hq)⟩
    | some p =>
      obtain ⟨rfl, he⟩ := tracked_some ht
      rw [ht] at hF'
      refine inv_define hI hW hd hr hs (fun q hq hc hn => .inr (hF' q hq hc hn)) ?_
      intro g hg
      simp only [Option.some.injEq] at hg; subst hg
      refine ⟨by simp [Fact.syms, Affine.syms, Affine.const], .inr ?_⟩
      simp only [FactSays, hv, w_int, eval_const]
  | @storeReg r dst _ _ hr hv hs =>
    have hF' := hF dst (by simp [Op.writes])
    simp only [transfer] at hF' ⊢
    cases ht : tracked f dst with
    | none =>
      exact ⟨ρ, inv_frame hI hr fun q hq => hs q (not_covers_escaped (tracked_none ht) hq)⟩
    | some p =>
      obtain ⟨rfl, he⟩ := tracked_some ht
      rw [ht] at hF'
      refine inv_define hI hW hd hr hs (fun q hq hc hn => .inr (hF' q hq hc hn)) ?_
      intro g hg
      refine ⟨hW.fact _ g hg, ?_⟩
      rw [hv]
      exact hI.facts _ g hg
  | @buildArray n dst _ _ hr hv hs =>
    have hF' := hF dst (by simp [Op.writes])
    simp only [transfer] at hF' ⊢
    cases ht : tracked f dst with
    | none =>
      exact ⟨ρ, inv_frame hI hr fun q hq => hs q (not_covers_escaped (tracked_none ht) hq)⟩
    | some p =>
      obtain ⟨rfl, he⟩ := tracked_some ht
      rw [ht] at hF'
      have hcur := (define_cur (f := f) (st := st) d p none).trans
        (define_cur d (p.field lenField)
          (some (.value (.const (BitVec.ofNat 64 n)))))
      have hsub : ∀ q, p.covers q = true ∨ (p.field lenField).covers q = true →
          p.covers q = true := by
        rintro q (h | h)
        · exact h
        · simp only [Place.covers, Place.field, Bool.and_eq_true, beq_iff_eq,
            List.isPrefixOf_iff_prefix] at h ⊢
          exact ⟨h.1, (List.prefix_append _ _).trans h.2⟩
      apply inv_effect (T := _) hI hW hd hcur
      · intro q _ h; exact hs q (fun h' => h (.inl h'))
      · intro q hq h hn; exact .inr (hF' q hq (hsub q h) hn)
      · intro s g hg
        rcases define_facts hg with ⟨rfl, h⟩ | h
        · right
          simp only [Option.some.injEq] at h; subst h
          refine ⟨by simp [Fact.syms, Affine.syms, Affine.const], .inr ?_⟩
          simp only [newVal, if_true, FactSays, hv, w_int, eval_const]
        · rcases define_facts h with ⟨_, h⟩ | h
          · simp at h
          · exact .inl ⟨h, fun r _ => by rw [hr]⟩
      · intro q hq; exact .inl hq
  | @load r src _ =>
    simp only [transfer]
    apply inv_reg hI hW hd
    intro g hg
    simp only [Option.map_eq_some_iff] at hg
    obtain ⟨p, hp, rfl⟩ := hg
    obtain ⟨rfl, he⟩ := tracked_some hp
    cases h : st.facts (st.symbolOf p) with
    | some g =>
      exact ⟨hW.fact _ g h, hI.fact_at he h⟩
    | none =>
      refine ⟨within_placeAffine hW trivial, ?_⟩
      by_cases hj : m.cell p = .junk
      · exact .inl hj
      · exact .inr (hI.placeAffine he hj).symm
  | @subfield base field _ hlen =>
    simp only [transfer]
    split
    · rename_i p hp
      obtain ⟨rfl, he⟩ := tracked_some hp
      split
      · rename_i hl
        split
        · rename_i pred hpred
          have hl0 := by
            simp only [isLength, Bool.and_eq_true, List.isEmpty_iff, beq_iff_eq, List.contains_iff_mem] at hl
            exact hlen hl.1.1 hl.1.2 hl.2
          refine ⟨ρ, ?_, ?_, ?_, ?_⟩
          · rw [current_assume]; exact hI.agree
          · rw [current_assume]; exact hI.absent
          · rw [facts_assume]; exact hI.facts
          · intro q hq
            rcases known_assume hq with rfl | hq
            · obtain ⟨e1, e2⟩ := eval_between (v := ws ρ) hpred
              unfold Predicate.Holds
              rw [e1, e2, eval_const]
              rw [hI.placeAffine (p := p.field field) he hl0.1]
              have h0 := hl0.2
              simp only [Comparison.Zero]
              rw [sle_iff, toInt_zero] at h0 ⊢
              have h1 := toInt_sub 0 (m.cell (p.field field)).w
              have h2 := toInt_bounds (m.cell (p.field field)).w
              rw [toInt_zero] at h1
              omega
            · exact hI.known q hq
        · exact ⟨ρ, hI⟩
      · exact ⟨ρ, hI⟩
    · exact ⟨ρ, hI⟩
  | @memcpy src dst _ _ hr hv hs =>
    have hF' := hF dst (by simp [Op.writes])
    have hcur := cur_dst_opt (f := f) (st := st) d (tracked f src) dst
    simp only [transfer] at hF' ⊢
    cases ht : tracked f dst with
    | none =>
      exact ⟨ρ, inv_frame hI hr fun q hq => hs q (not_covers_escaped (tracked_none ht) hq)⟩
    | some p =>
      obtain ⟨rfl, he⟩ := tracked_some ht
      rw [ht] at hF' hcur
      apply inv_effect (T := _) hI hW hd hcur
      · intro q _ h; exact hs q h
      · intro q hq h hn; exact .inr (hF' q hq h hn)
      · intro s g hg
        rcases copy_facts hg with h | ⟨q, p', hp', hcov, rfl, rfl⟩
        · exact .inl ⟨h, fun r _ => by rw [hr]⟩
        · right
          refine ⟨within_copiedFact hW (.inl trivial), ?_⟩
          simp only [newVal, if_true]
          exact copied_holds hI hp' hcov hv
      · intro q hq; rw [copy_known] at hq; exact .inl hq
  | @move src dst _ _ hr hv hd' hj hs =>
    have hF' := hF dst (by simp [Op.writes])
    have hcur := (cur_dst_opt (f := f) (st := st) d (tracked f src) dst).trans
      (cur_define_opt d src none)
    apply inv_effect (T := _) hI hW hd hcur
    · intro q _ h; exact hs q h
    · intro q hq h hn
      by_cases hsrc : src.covers q = true
      · exact .inl (hj q hsrc)
      · exact .inr (hF' q hq (h.resolve_right hsrc) hn)
    · intro s g hg
      have hg' : (match tracked f dst with
        | some q => st.copy (tracked f src) q d
        | none => st).facts s = some g := by
        split at hg
        · rcases define_facts hg with ⟨_, h⟩ | h
          · simp at h
          · exact h
        · exact hg
      split at hg'
      · rename_i p ht
        obtain ⟨rfl, he⟩ := tracked_some ht
        rcases copy_facts hg' with h | ⟨q, p', hp', hcov, rfl, rfl⟩
        · exact .inl ⟨h, fun r _ => by rw [hr]⟩
        · right
          refine ⟨within_copiedFact hW (.inl trivial), ?_⟩
          simp only [newVal, if_true]
          exact copied_holds hI hp' hcov hv
      · exact .inl ⟨hg', fun r _ => by rw [hr]⟩
    · intro q hq
      left
      split at hq
      · rw [define_known] at hq
        split at hq
        · rw [copy_known] at hq; exact hq
        · exact hq
      · split at hq
        · rw [copy_known] at hq; exact hq
        · exact hq
  | @drop p _ _ hr hj hs =>
    simp only [transfer]
    cases ht : tracked f p with
    | none =>
      exact ⟨ρ, inv_frame hI hr fun q hq => hs q (not_covers_escaped (tracked_none ht) hq)⟩
    | some p' =>
      obtain ⟨rfl, he⟩ := tracked_some ht
      exact inv_define hI hW hd hr hs (fun q _ hc _ => .inl (hj q hc)) (by simp)
  | @extractTag r src _ =>
    simp only [transfer]
    apply inv_reg hI hW hd
    intro g hg
    split at hg
    · rename_i p hp
      obtain ⟨rfl, he⟩ := tracked_some hp
      split at hg
      · rename_i h
        simp only [Option.some.injEq] at hg; subst hg
        exact ⟨hW.fact _ _ h, hI.fact_at he h⟩
      · simp at hg
    · simp at hg
  | @compEqPlace r p tag _ hj =>
    simp only [transfer]
    apply inv_reg hI hW hd
    intro g hg
    refine ⟨within_comparisonFact hW hg, .inr ?_⟩
    unfold comparisonFact at hg
    simp only at hg
    split at hg
    · rename_i l r' hf
      split at hf
      · rename_i q hq
        obtain ⟨rfl, he⟩ := tracked_some hq
        exact comparison_holds ((hI.fact_at he hf).resolve_left hj) hg
      · simp at hf
    · simp at hg
  | @compEqReg r s tag _ hj =>
    simp only [transfer]
    apply inv_reg hI hW hd
    intro g hg
    refine ⟨within_comparisonFact hW hg, .inr ?_⟩
    unfold comparisonFact at hg
    simp only at hg
    split at hg
    · rename_i l r' hf
      exact comparison_holds ((hI.facts _ _ hf).resolve_left hj) hg
    · simp at hg
  | compute hp hj hv hr hv' hs =>
    refine inv_result hI hW hd hF hr (forget_plain _ (fun a ha => (hp a ha).1)) hs ?_
    intro g hg
    rw [hv']
    exact .inr (result_says hk hI hc hj hv hg)
  | resolveIndex hp hj ho hw hr hv hs =>
    refine inv_result hI hW hd hF hr (forget_plain _ (fun a ha => (hp a ha).1)) hs ?_
    intro g hg; simp [resultFact] at hg
  | arrayIndex hp hj ho hw hr hs =>
    refine inv_result hI hW hd hF hr (by simp [forgetArgs]) hs ?_
    intro g hg; simp [resultFact] at hg
  | other hr hs => exact inv_other hI hW hd hF hr hs
  | @clone src dst _ _ hr hs =>
    have hF' := hF dst (by simp [Op.writes])
    simp only [transfer] at hF' ⊢
    cases ht : tracked f dst with
    | none =>
      exact ⟨ρ, inv_frame hI hr fun q hq => hs q (not_covers_escaped (tracked_none ht) hq)⟩
    | some p =>
      obtain ⟨rfl, he⟩ := tracked_some ht
      rw [ht] at hF'
      exact inv_define hI hW hd hr hs (fun q hq hc hn => .inr (hF' q hq hc hn)) (by simp)

/-- So does one which fails. -/
theorem inv_fail {op : Op} {d : Def} (hI : Inv f ρ m st)
    (hW : Within (fun _ => True) (fun e => e ≠ d) st) (hd : d ≠ .entry)
    (hF : NoStale rank f op d st) (hs : OpFail f op m m') :
    ∃ ρ', Inv f ρ' m' (transfer rank f op d st) := by
  cases hs with
  | resolveIndex hp ho hw hr hs =>
    refine inv_result hI hW hd hF hr (forget_plain _ (fun a ha => (hp a ha).1)) hs ?_
    intro g hg; simp [resultFact] at hg
  | arrayIndex ho hw hr hs =>
    refine inv_result hI hW hd hF hr (by simp [forgetArgs]) hs ?_
    intro g hg; simp [resultFact] at hg
  | other hr hs => exact inv_other hI hW hd hF hr hs

end

end Ferlium.Relations
