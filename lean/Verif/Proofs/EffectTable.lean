import Verif.Model.EffectInfer
import Mathlib.Tactic

/-!
# Lemmas on effect tables and their flattening
-/

namespace Ferlium.EffInfer

theorem Prims.has_union (s t : Prims) (p : Prim) : (s.union t).has p = true ↔ s.has p = true ∨ t.has p = true := by
  cases p <;> simp [Prims.union, Prims.has]

theorem Prims.has_none (p : Prim) : Prims.none.has p = false := by cases p <;> rfl

theorem Prims.sub_iff (s t : Prims) : s.sub t = true ↔ ∀ p, s.has p = true → t.has p = true := by
  constructor
  · intro h p
    simp only [Prims.sub, Bool.and_eq_true, Bool.or_eq_true, Bool.not_eq_true'] at h
    cases p <;> simp only [Prims.has] <;> intro hp <;> simp_all
  · intro h
    have h1 := h .read; have h2 := h .write; have h3 := h .fallible
    simp only [Prims.has] at h1 h2 h3
    simp only [Prims.sub, Bool.and_eq_true, Bool.or_eq_true, Bool.not_eq_true']
    refine ⟨⟨?_, ?_⟩, ?_⟩
    · cases hs : s.read <;> simp_all
    · cases hs : s.write <;> simp_all
    · cases hs : s.fallible <;> simp_all

theorem Prims.eq_none {s : Prims} : s = Prims.none ↔ ∀ p, s.has p = false := by
  constructor
  · rintro rfl p; exact has_none p
  · intro h
    have h1 := h .read; have h2 := h .write; have h3 := h .fallible
    simp only [Prims.has] at h1 h2 h3
    cases s; simp_all [Prims.none]

theorem mem_insVar (x y : Nat) (l : List Nat) : y ∈ insVar x l ↔ y = x ∨ y ∈ l := by
  induction l with
  | nil => simp [insVar]
  | cons z zs ih =>
    unfold insVar
    split
    · simp
    · split
      · rename_i h; subst h; simp
      · simp only [List.mem_cons, ih]; tauto

theorem mem_foldr_insVar (y : Nat) (a b : List Nat) : y ∈ a.foldr insVar b ↔ y ∈ a ∨ y ∈ b := by
  induction a with
  | nil => simp
  | cons z zs ih => simp only [List.foldr_cons, mem_insVar, ih, List.mem_cons]; tauto

namespace Eff

theorem mem_union (a b : Eff) (v : Nat) : v ∈ (a.union b).vars ↔ v ∈ a.vars ∨ v ∈ b.vars :=
  mem_foldr_insVar v a.vars b.vars

theorem has_union (a b : Eff) (p : Prim) :
    (a.union b).prims.has p = true ↔ a.prims.has p = true ∨ b.prims.has p = true :=
  Prims.has_union _ _ _

theorem single_eq {e : Eff} {v : Nat} (h : e.single = some v) : e = Eff.var v := by
  unfold single at h
  split at h
  · split at h
    · rename_i hp _ w hv
      cases e; cases h; simp_all [Eff.var]
    · cases h
  · cases h

@[simp] theorem single_var (v : Nat) : (Eff.var v).single = some v := by simp [single, Eff.var]

end Eff

/-- Set inclusion of effects. -/
def Eff.Le (a b : Eff) : Prop := (∀ p, a.prims.has p = true → b.prims.has p = true) ∧ ∀ v ∈ a.vars, v ∈ b.vars

theorem Eff.Le.refl (a : Eff) : a.Le a := ⟨fun _ h => h, fun _ h => h⟩

theorem Eff.Le.trans {a b c : Eff} (h : a.Le b) (k : b.Le c) : a.Le c :=
  ⟨fun p hp => k.1 p (h.1 p hp), fun v hv => k.2 v (h.2 v hv)⟩

theorem Eff.le_union_left (a b : Eff) : a.Le (a.union b) :=
  ⟨fun p h => (has_union a b p).mpr (Or.inl h), fun v h => (mem_union a b v).mpr (Or.inl h)⟩

theorem Eff.le_union_right (a b : Eff) : b.Le (a.union b) :=
  ⟨fun p h => (has_union a b p).mpr (Or.inr h), fun v h => (mem_union a b v).mpr (Or.inr h)⟩

theorem Eff.union_le {a b c : Eff} (h : a.Le c) (k : b.Le c) : (a.union b).Le c :=
  ⟨fun p hp => ((has_union a b p).mp hp).elim (h.1 p) (k.1 p),
   fun v hv => ((mem_union a b v).mp hv).elim (h.2 v) (k.2 v)⟩

/-! ## What an effect stands for in a table -/

/-- `Holds t e p`: the primitive effect `p` is reached from `e` through the values of the table. -/
inductive Holds (t : Table) : Eff → Prim → Prop
  | here {e p} : e.prims.has p = true → Holds t e p
  | step {e v x p} : v ∈ e.vars → t.val (t.rep v) = some x → Holds t x p → Holds t e p

/-- `Free t e r`: the variable `r`, without value, is reached from `e`. -/
inductive Free (t : Table) : Eff → Nat → Prop
  | here {e v} : v ∈ e.vars → t.val (t.rep v) = none → Free t e (t.rep v)
  | step {e v x r} : v ∈ e.vars → t.val (t.rep v) = some x → Free t x r → Free t e r

/-- `Passes t e r`: the representative `r` is reached from `e`. -/
inductive Passes (t : Table) : Eff → Nat → Prop
  | here {e v} : v ∈ e.vars → Passes t e (t.rep v)
  | step {e v x r} : v ∈ e.vars → t.val (t.rep v) = some x → Passes t x r → Passes t e r

theorem Holds.mono {t : Table} {a b : Eff} {p : Prim} (h : Holds t a p) (k : a.Le b) : Holds t b p := by
  cases h with
  | here h => exact .here (k.1 p h)
  | step hv hx h => exact .step (k.2 _ hv) hx h

theorem Free.mono {t : Table} {a b : Eff} {r : Nat} (h : Free t a r) (k : a.Le b) : Free t b r := by
  cases h with
  | here hv hn => exact .here (k.2 _ hv) hn
  | step hv hx h => exact .step (k.2 _ hv) hx h

theorem holds_union {t : Table} {a b : Eff} {p : Prim} :
    Holds t (a.union b) p ↔ Holds t a p ∨ Holds t b p := by
  constructor
  · intro h
    cases h with
    | here h => exact ((Eff.has_union a b p).mp h).imp .here .here
    | step hv hx h => exact ((Eff.mem_union a b _).mp hv).imp (.step · hx h) (.step · hx h)
  · rintro (h | h)
    · exact h.mono (Eff.le_union_left a b)
    · exact h.mono (Eff.le_union_right a b)

/-- Growth of a table: classes are only merged and values only gain elements. -/
structure Table.Grows (t u : Table) : Prop where
  same : ∀ a b, t.rep a = t.rep b → u.rep a = u.rep b
  vals : ∀ k e, t.val (t.rep k) = some e → ∃ e', u.val (u.rep k) = some e' ∧ e.Le e'

namespace Table.Grows

theorem refl (t : Table) : t.Grows t := ⟨fun _ _ h => h, fun _ e h => ⟨e, h, Eff.Le.refl e⟩⟩

theorem trans {t u w : Table} (h : t.Grows u) (k : u.Grows w) : t.Grows w :=
  ⟨fun a b e => k.same a b (h.same a b e), fun v e he => by
    obtain ⟨e1, h1, l1⟩ := h.vals v e he
    obtain ⟨e2, h2, l2⟩ := k.vals v e1 h1
    exact ⟨e2, h2, l1.trans l2⟩⟩

theorem holds {t u : Table} (h : t.Grows u) {e : Eff} {p : Prim} (k : Holds t e p) : Holds u e p := by
  induction k with
  | here h => exact .here h
  | step hv hx _ ih =>
    obtain ⟨x', hx', l⟩ := h.vals _ _ hx
    exact .step hv hx' (ih.mono l)

end Table.Grows

theorem merge_grows_left {a b : Option Eff} {e : Eff} (h : a = some e) : ∃ e', Table.merge a b = some e' ∧ e.Le e' := by
  subst h
  cases b with
  | none => exact ⟨e, rfl, Eff.Le.refl e⟩
  | some x => exact ⟨e.union x, rfl, Eff.le_union_left e x⟩

theorem merge_grows_right {a b : Option Eff} {e : Eff} (h : b = some e) : ∃ e', Table.merge a b = some e' ∧ e.Le e' := by
  subst h
  cases a with
  | none => exact ⟨e, rfl, Eff.Le.refl e⟩
  | some x => exact ⟨x.union e, rfl, Eff.le_union_right x e⟩

theorem unionValue_grows (t : Table) (v : Nat) (e : Eff) : t.Grows (t.unionValue v e) := by
  refine ⟨fun _ _ h => h, fun k x h => ?_⟩
  simp only [Table.unionValue]
  split
  · exact merge_grows_left h
  · exact ⟨x, h, Eff.Le.refl x⟩

theorem unionValue_val (t : Table) (v : Nat) (e : Eff) :
    ∃ x, (t.unionValue v e).val ((t.unionValue v e).rep v) = some x ∧ e.Le x := by
  simp only [Table.unionValue, if_true]
  exact merge_grows_right rfl

/-- Representatives are their own representatives. -/
def Table.Flat (t : Table) : Prop := ∀ k, t.rep (t.rep k) = t.rep k

theorem union_grows (t : Table) (a b : Nat) : t.Grows (t.union a b) := by
  unfold Table.union
  split
  · exact .refl t
  rename_i hab
  refine ⟨fun x y h => ?_, fun k e h => ?_⟩
  · simp only [h]
  · simp only
    by_cases hk : t.rep k = t.rep a
    · simp only [hk, if_true]
      exact merge_grows_left (hk ▸ h)
    · simp only [hk, if_false]
      split
      · rename_i hb
        exact merge_grows_right (hb ▸ h)
      · exact ⟨e, h, Eff.Le.refl e⟩

theorem union_same (t : Table) (a b : Nat) : (t.union a b).rep a = (t.union a b).rep b := by
  unfold Table.union
  split
  · assumption
  rename_i hab
  simp only [if_true]
  split <;> rfl

theorem unionAll_grows (t : Table) (vs : List Nat) (e : Eff) : t.Grows (unionAll t vs e) := by
  unfold unionAll
  induction vs generalizing t with
  | nil => exact .refl t
  | cons v vs ih => exact (unionValue_grows t v e).trans (ih _)

theorem unionVars_grows (t : Table) (vs : List Nat) : t.Grows (unionVars t vs) := by
  cases vs with
  | nil => exact .refl t
  | cons v vs =>
    simp only [unionVars]
    induction vs generalizing t with
    | nil => exact .refl t
    | cons w vs ih => exact (union_grows t v w).trans (ih _)

theorem unifyArgs_grows (t : Table) (ps : List Eff) : t.Grows (unifyArgs t ps) := by
  unfold unifyArgs
  induction ps generalizing t with
  | nil => exact .refl t
  | cons e es ih => exact (unionVars_grows t e.vars).trans (ih _)

/-- All variables below the next key. -/
def Eff.Below (n : Nat) (e : Eff) : Prop := ∀ v ∈ e.vars, v < n

/-- The invariant of the table: only existing variables occur. -/
structure Table.WF (t : Table) : Prop where
  flat : t.Flat
  rep : ∀ k, k < t.next → t.rep k < t.next
  out : ∀ k, t.next ≤ k → t.rep k = k ∧ t.val k = none
  vals : ∀ k e, t.val k = some e → e.Below t.next

/-! ## Flattening -/

/-- A cache entry tells only what its representative stands for. -/
def CacheSound (t : Table) (c : Cache) : Prop :=
  ∀ r x, (r, x) ∈ c → t.rep r = r ∧ (∀ p, x.prims.has p = true → Holds t (Eff.var r) p) ∧
    ∀ q ∈ x.vars, Passes t (Eff.var r) q

/-- The result of flattening tells only what the effect stands for. -/
def FlatSound (t : Table) (e : Eff) (x : Eff × Cache) : Prop :=
  (∀ p, x.1.prims.has p = true → Holds t e p) ∧ (∀ q ∈ x.1.vars, Passes t e q) ∧ CacheSound t x.2

theorem lookup_mem {c : Cache} {r : Nat} {x : Eff} (h : c.lookup r = some x) : (r, x) ∈ c := by
  induction c with
  | nil => simp at h
  | cons a c ih =>
    obtain ⟨k, y⟩ := a
    rw [List.lookup_cons] at h
    split at h
    · rename_i hk
      have : r = k := by simpa using hk
      subst this; cases h; exact List.mem_cons_self
    · exact List.mem_cons_of_mem _ (ih h)

theorem holds_var {t : Table} {e : Eff} {v : Nat} {p : Prim} (hf : t.Flat) (hv : v ∈ e.vars)
    (h : Holds t (Eff.var (t.rep v)) p) : Holds t e p := by
  cases h with
  | here h => simp [Eff.var, Prims.has_none] at h
  | step hw hx h =>
    simp only [Eff.var, List.mem_singleton] at hw
    subst hw
    rw [hf] at hx
    exact .step hv hx h

theorem passes_var {t : Table} {e : Eff} {v : Nat} {q : Nat} (hf : t.Flat) (hv : v ∈ e.vars)
    (h : Passes t (Eff.var (t.rep v)) q) : Passes t e q := by
  cases h with
  | here hw =>
    simp only [Eff.var, List.mem_singleton] at hw
    subst hw; rw [hf]; exact .here hv
  | step hw hx h =>
    simp only [Eff.var, List.mem_singleton] at hw
    subst hw
    rw [hf] at hx
    exact .step hv hx h

theorem flatVar_sound {keep : Bool} {t : Table} (hf : t.Flat) {vis : List Nat}
    {rec : List Nat → Cache → Eff → Eff × Cache}
    (hrec : ∀ vis c e, CacheSound t c → FlatSound t e (rec vis c e))
    {e : Eff} {v : Nat} (hv : v ∈ e.vars) {s : Eff × Cache} (hs : FlatSound t e s) :
    FlatSound t e (flatVar keep t vis rec s v) := by
  obtain ⟨h1, h2, h3⟩ := hs
  have add : ∀ (y : Eff) (c : Cache), (∀ p, y.prims.has p = true → Holds t e p) →
      (∀ q ∈ y.vars, Passes t e q) → CacheSound t c → FlatSound t e (s.1.union y, c) := by
    intro y c a b d
    exact ⟨fun p hp => ((Eff.has_union _ _ _).mp hp).elim (h1 p) (a p),
      fun q hq => ((Eff.mem_union _ _ _).mp hq).elim (h2 q) (b q), d⟩
  have hvar : ∀ p, (Eff.var (t.rep v)).prims.has p = true → Holds t e p := by
    intro p hp; simp [Eff.var, Prims.has_none] at hp
  have hvar' : ∀ q ∈ (Eff.var (t.rep v)).vars, Passes t e q := by
    intro q hq
    simp only [Eff.var, List.mem_singleton] at hq
    subst hq; exact .here hv
  unfold flatVar
  simp only
  split
  · rename_i x hx
    obtain ⟨_, a, b⟩ := h3 _ _ (lookup_mem hx)
    exact add _ _ (fun p hp => holds_var hf hv (a p hp)) (fun q hq => passes_var hf hv (b q hq)) h3
  split
  · exact add _ _ hvar hvar' h3
  split
  · refine add _ _ hvar hvar' ?_
    intro r x hr
    rcases List.mem_cons.mp hr with hr | hr
    · cases hr
      refine ⟨hf v, fun p hp => by simp [Eff.var, Prims.has_none] at hp, fun q hq => ?_⟩
      simp only [Eff.var, List.mem_singleton] at hq
      rw [hq]
      have := @Passes.here t (Eff.var (t.rep v)) (t.rep v) (by simp [Eff.var])
      rwa [hf] at this
    · exact h3 r x hr
  · rename_i x hx
    obtain ⟨a, b, d⟩ := hrec (t.rep v :: vis) s.2 x h3
    have key : ∀ y : Eff, y = (if keep && !(rec (t.rep v :: vis) s.2 x).1.onlyVars then
        (rec (t.rep v :: vis) s.2 x).1.union (Eff.var (t.rep v)) else (rec (t.rep v :: vis) s.2 x).1) →
        (∀ p, y.prims.has p = true → Holds t (Eff.var (t.rep v)) p) ∧
        (∀ q ∈ y.vars, Passes t (Eff.var (t.rep v)) q) := by
      have hx' : t.val (t.rep (t.rep v)) = some x := by rw [hf]; exact hx
      have a' : ∀ p, (rec (t.rep v :: vis) s.2 x).1.prims.has p = true → Holds t (Eff.var (t.rep v)) p :=
        fun p hp => .step (by simp [Eff.var]) hx' (a p hp)
      have b' : ∀ q ∈ (rec (t.rep v :: vis) s.2 x).1.vars, Passes t (Eff.var (t.rep v)) q :=
        fun q hq => .step (by simp [Eff.var]) hx' (b q hq)
      intro y hy
      split at hy
      · subst hy
        refine ⟨fun p hp => ((Eff.has_union _ _ _).mp hp).elim (a' p) (fun h => by simp [Eff.var, Prims.has_none] at h),
          fun q hq => ((Eff.mem_union _ _ _).mp hq).elim (b' q) (fun h => ?_)⟩
        simp only [Eff.var, List.mem_singleton] at h
        rw [h]
        have := @Passes.here t (Eff.var (t.rep v)) (t.rep v) (by simp [Eff.var])
        rwa [hf] at this
      · subst hy; exact ⟨a', b'⟩
    obtain ⟨k1, k2⟩ := key _ rfl
    refine add _ _ (fun p hp => holds_var hf hv (k1 p hp)) (fun q hq => passes_var hf hv (k2 q hq)) ?_
    intro r z hr
    rcases List.mem_cons.mp hr with hr | hr
    · cases hr; exact ⟨hf v, k1, k2⟩
    · exact d r z hr

theorem flat_sound (keep : Bool) {t : Table} (hf : t.Flat) (n : Nat) (vis : List Nat) (c : Cache) (e : Eff)
    (hc : CacheSound t c) : FlatSound t e (flat keep t n vis c e) := by
  induction n generalizing vis c e with
  | zero => exact ⟨fun p hp => .here hp, fun q hq => (by cases hq), hc⟩
  | succ n ih =>
    have : ∀ (vs : List Nat) (s : Eff × Cache), (∀ v ∈ vs, v ∈ e.vars) → FlatSound t e s →
        FlatSound t e (vs.foldl (flatVar keep t vis (flat keep t n)) s) := by
      intro vs
      induction vs with
      | nil => intro s _ hs; exact hs
      | cons v vs ihv =>
        intro s hm hs
        exact ihv _ (fun w hw => hm w (List.mem_cons_of_mem _ hw))
          (flatVar_sound hf (fun vis c e hc => ih vis c e hc) (hm v List.mem_cons_self) hs)
    exact this e.vars _ (fun _ h => h) ⟨fun p hp => .here hp, fun q hq => (by cases hq), hc⟩

/-! ### Flattening misses nothing -/

/-- A cache whose entries tell all that their representatives stand for. -/
def CacheFull (t : Table) (c : Cache) : Prop :=
  ∀ r x, (r, x) ∈ c → (∀ p, Holds t (Eff.var r) p → x.prims.has p = true) ∧
    ∀ q, Free t (Eff.var r) q → q ∈ x.vars

/-- A representative met while flattening: being flattened, flattened since the beginning, or in the
initial cache and counted. -/
def Touched (c0 : Cache) (vis : List Nat) (m : Cache) (res : Eff) (r : Nat) : Prop :=
  r ∈ vis ∨ (∃ x, (r, x) ∈ m) ∨ ∃ x, (r, x) ∈ c0 ∧ x.Le res

theorem Touched.mono {c0 : Cache} {vis : List Nat} {m m' : Cache} {res res' : Eff} {r : Nat}
    (h : Touched c0 vis m res r) (hm : ∀ a, a ∈ m → a ∈ m') (hr : res.Le res') : Touched c0 vis m' res' r := by
  rcases h with h | ⟨x, h⟩ | ⟨x, h, l⟩
  · exact .inl h
  · exact .inr (.inl ⟨x, hm _ h⟩)
  · exact .inr (.inr ⟨x, h, l.trans hr⟩)

/-- What a run of flattening guarantees: from the entries `n` made before it and the initial ones
`c0`, it makes the entries `m`. -/
structure Covers (t : Table) (c0 : Cache) (vis : List Nat) (n : Cache) (x : Eff × Cache) (m : Cache) : Prop where
  split : x.2 = m ++ n ++ c0
  some : ∀ r y, (∃ z, (r, z) ∈ m) → t.val r = some y → (∀ p, y.prims.has p = true → x.1.prims.has p = true) ∧
    ∀ v ∈ y.vars, Touched c0 vis (m ++ n) x.1 (t.rep v)
  none : ∀ r, (∃ z, (r, z) ∈ m) → t.val r = none → r ∈ x.1.vars

theorem flatVar_covers {keep : Bool} {t : Table} (hw : t.WF) {vis : List Nat} {n0 : Nat}
    {c0 : Cache} (hvis : ∀ r ∈ vis, r < t.next) (hnd : vis.Nodup) (hfuel : t.next < vis.length + (n0 + 1))
    (hrec : ∀ vis n e, (∀ r ∈ vis, r < t.next) → vis.Nodup → t.next < vis.length + n0 → e.Below t.next →
      ∃ m, Covers t c0 vis n (flat keep t n0 vis (n ++ c0) e) m ∧
        (∀ p, e.prims.has p = true → (flat keep t n0 vis (n ++ c0) e).1.prims.has p = true) ∧
        ∀ v ∈ e.vars, Touched c0 vis (m ++ n) (flat keep t n0 vis (n ++ c0) e).1 (t.rep v))
    {v : Nat} (hv : v < t.next) {n m : Cache} {s : Eff × Cache} (hs : Covers t c0 vis n s m) :
    ∃ m', Covers t c0 vis n (flatVar keep t vis (flat keep t n0) s v) m' ∧
      s.1.Le (flatVar keep t vis (flat keep t n0) s v).1 ∧ (∀ a ∈ m, a ∈ m') ∧
      Touched c0 vis (m' ++ n) (flatVar keep t vis (flat keep t n0) s v).1 (t.rep v) := by
  have grow : ∀ (y : Eff) (m' : Cache), (∀ a ∈ m, a ∈ m') →
      ∀ r z, (∃ u, (r, u) ∈ m) → t.val r = Option.some z →
        (∀ p, z.prims.has p = true → (s.1.union y).prims.has p = true) ∧
        ∀ w ∈ z.vars, Touched c0 vis (m' ++ n) (s.1.union y) (t.rep w) := by
    intro y m' hm r z hr hz
    obtain ⟨a, b⟩ := hs.some r z hr hz
    refine ⟨fun p hp => (Eff.has_union _ _ _).mpr (.inl (a p hp)), fun w hw => ?_⟩
    refine (b w hw).mono (fun q hq => ?_) (Eff.le_union_left _ _)
    rcases List.mem_append.mp hq with hq | hq
    · exact List.mem_append.mpr (.inl (hm q hq))
    · exact List.mem_append.mpr (.inr hq)
  have grow' : ∀ (y : Eff), ∀ r, (∃ u, (r, u) ∈ m) → t.val r = Option.none → r ∈ (s.1.union y).vars :=
    fun y r hr hz => (Eff.mem_union _ _ _).mpr (.inl (hs.none r hr hz))
  unfold flatVar
  simp only
  split
  · rename_i x hx
    refine ⟨m, ⟨hs.split, grow x m (fun _ h => h), grow' x⟩, Eff.le_union_left _ _, fun _ h => h, ?_⟩
    have hmem := lookup_mem hx
    rw [hs.split, List.mem_append] at hmem
    rcases hmem with h | h
    · exact .inr (.inl ⟨x, h⟩)
    · exact .inr (.inr ⟨x, h, Eff.le_union_right _ _⟩)
  split
  · rename_i hin
    exact ⟨m, ⟨hs.split, grow _ m (fun _ h => h), grow' _⟩, Eff.le_union_left _ _, fun _ h => h, .inl hin⟩
  rename_i hnin
  split
  · rename_i hval
    refine ⟨(t.rep v, Eff.var (t.rep v)) :: m, ⟨congrArg _ hs.split, ?_, ?_⟩, Eff.le_union_left _ _,
      fun a h => List.mem_cons_of_mem _ h, .inr (.inl ⟨Eff.var (t.rep v), by simp⟩)⟩
    · rintro r y ⟨z, hz⟩ hy
      rcases List.mem_cons.mp hz with hz | hz
      · cases hz; rw [hval] at hy; cases hy
      · exact grow _ _ (fun a h => List.mem_cons_of_mem _ h) r y ⟨z, hz⟩ hy
    · rintro r ⟨z, hz⟩ hy
      rcases List.mem_cons.mp hz with hz | hz
      · cases hz; exact (Eff.mem_union _ _ _).mpr (.inr (by simp [Eff.var]))
      · exact grow' _ r ⟨z, hz⟩ hy
  · rename_i e he
    have hbelow := hw.vals _ _ he
    obtain ⟨m1, hc1, hp1, ht1⟩ := hrec (t.rep v :: vis) (m ++ n) e
      (by intro r hr; rcases List.mem_cons.mp hr with rfl | hr
          · exact hw.rep v hv
          · exact hvis r hr)
      (List.nodup_cons.mpr ⟨hnin, hnd⟩) (by simp only [List.length_cons]; omega) hbelow
    rw [show s.2 = m ++ n ++ c0 from hs.split]
    generalize flat keep t n0 (t.rep v :: vis) (m ++ n ++ c0) e = x at *
    generalize hy : (if keep && !x.1.onlyVars then x.1.union (Eff.var (t.rep v)) else x.1) = y at *
    have hle : x.1.Le y := by
      rw [← hy]; split
      · exact Eff.le_union_left _ _
      · exact Eff.Le.refl _
    have hle' : x.1.Le (s.1.union y) := hle.trans (Eff.le_union_right _ _)
    have hmove : ∀ w, Touched c0 (t.rep v :: vis) (m1 ++ (m ++ n)) x.1 w →
        Touched c0 vis ((t.rep v, y) :: (m1 ++ m) ++ n) (s.1.union y) w := by
      rintro w (h | ⟨z, h⟩ | ⟨z, h, l⟩)
      · rcases List.mem_cons.mp h with rfl | h
        · exact .inr (.inl ⟨y, by simp⟩)
        · exact .inl h
      · refine .inr (.inl ⟨z, ?_⟩)
        simp only [List.mem_append, List.mem_cons] at h ⊢
        tauto
      · exact .inr (.inr ⟨z, h, l.trans hle'⟩)
    refine ⟨(t.rep v, y) :: (m1 ++ m), ⟨?_, ?_, ?_⟩, Eff.le_union_left _ _, ?_, .inr (.inl ⟨y, by simp⟩)⟩
    · simp [hc1.split, List.append_assoc]
    · rintro r z ⟨u, hu⟩ hz
      rcases List.mem_cons.mp hu with hu | hu
      · cases hu
        rw [he] at hz; cases hz
        exact ⟨fun p hp => hle'.1 p (hp1 p hp), fun w hw => hmove _ (ht1 w hw)⟩
      · rcases List.mem_append.mp hu with hu | hu
        · obtain ⟨a, b⟩ := hc1.some r z ⟨u, hu⟩ hz
          exact ⟨fun p hp => hle'.1 p (a p hp), fun w hw => hmove _ (b w hw)⟩
        · exact grow y ((t.rep v, y) :: (m1 ++ m)) (fun a h => by simp [h]) r z ⟨u, hu⟩ hz
    · rintro r ⟨u, hu⟩ hz
      rcases List.mem_cons.mp hu with hu | hu
      · cases hu; rw [he] at hz; cases hz
      · rcases List.mem_append.mp hu with hu | hu
        · exact hle'.2 r (hc1.none r ⟨u, hu⟩ hz)
        · exact grow' y r ⟨u, hu⟩ hz
    · intro a ha; simp [ha]

theorem flat_covers (keep : Bool) {t : Table} (hw : t.WF) (c0 : Cache) (n0 : Nat) :
    ∀ (vis : List Nat) (n : Cache) (e : Eff), (∀ r ∈ vis, r < t.next) → vis.Nodup →
      t.next < vis.length + n0 → e.Below t.next →
      ∃ m, Covers t c0 vis n (flat keep t n0 vis (n ++ c0) e) m ∧
        (∀ p, e.prims.has p = true → (flat keep t n0 vis (n ++ c0) e).1.prims.has p = true) ∧
        ∀ v ∈ e.vars, Touched c0 vis (m ++ n) (flat keep t n0 vis (n ++ c0) e).1 (t.rep v) := by
  induction n0 with
  | zero =>
    intro vis n e hvis hnd hlt
    have h2 : vis.length ≤ t.next := by
      have hsub : vis.toFinset ⊆ Finset.range t.next := by
        intro r hr; simp only [List.mem_toFinset] at hr; exact Finset.mem_range.mpr (hvis r hr)
      have := Finset.card_le_card hsub
      rwa [List.toFinset_card_of_nodup hnd, Finset.card_range] at this
    omega
  | succ n0 ih =>
    intro vis n e hvis hnd hlt hb
    have loop : ∀ (vs : List Nat) (s : Eff × Cache) (m : Cache), (∀ v ∈ vs, v < t.next) → Covers t c0 vis n s m →
        ∃ m', Covers t c0 vis n (vs.foldl (flatVar keep t vis (flat keep t n0)) s) m' ∧
          s.1.Le (vs.foldl (flatVar keep t vis (flat keep t n0)) s).1 ∧ (∀ a ∈ m, a ∈ m') ∧
          ∀ v ∈ vs, Touched c0 vis (m' ++ n) (vs.foldl (flatVar keep t vis (flat keep t n0)) s).1 (t.rep v) := by
      intro vs
      induction vs with
      | nil => intro s m _ hs; exact ⟨m, hs, Eff.Le.refl _, fun _ h => h, fun _ h => by cases h⟩
      | cons v vs ihv =>
        intro s m hm hs
        obtain ⟨m1, h1, l1, i1, t1⟩ := flatVar_covers (keep := keep) hw hvis hnd hlt ih (hm v List.mem_cons_self) hs
        obtain ⟨m2, h2, l2, i2, t2⟩ := ihv _ m1 (fun w hw => hm w (List.mem_cons_of_mem _ hw)) h1
        refine ⟨m2, h2, l1.trans l2, fun a h => i2 a (i1 a h), fun w hw => ?_⟩
        rcases List.mem_cons.mp hw with rfl | hw
        · refine t1.mono (fun q hq => ?_) l2
          rcases List.mem_append.mp hq with hq | hq
          · exact List.mem_append.mpr (.inl (i2 q hq))
          · exact List.mem_append.mpr (.inr hq)
        · exact t2 w hw
    obtain ⟨m, h, l, _, tt⟩ := loop e.vars (Eff.ground e.prims, n ++ c0) [] (fun v hv => hb v hv)
      ⟨by simp, (fun r y ⟨z, hz⟩ => nomatch hz), (fun r ⟨z, hz⟩ => nomatch hz)⟩
    exact ⟨m, h, fun p hp => l.1 p hp, tt⟩

/-- Flattening with a full cache gives all that the effect stands for. -/
theorem flat_full (keep : Bool) {t : Table} (hw : t.WF) {c0 : Cache} (hc : CacheFull t c0) (e : Eff)
    (hb : e.Below t.next) :
    (∀ p, Holds t e p → (flat keep t (t.next + 1) [] c0 e).1.prims.has p = true) ∧
    ∀ q, Free t e q → q ∈ (flat keep t (t.next + 1) [] c0 e).1.vars := by
  obtain ⟨m, hcov, hp, ht⟩ := flat_covers keep hw c0 (t.next + 1) [] [] e (by simp) List.nodup_nil (by simp) hb
  simp only [List.nil_append, List.append_nil] at hcov hp ht
  generalize flat keep t (t.next + 1) [] c0 e = x at *
  have rt : ∀ v y, v ∈ (y : Eff).vars → Touched c0 [] m x.1 (t.rep v) →
      (∃ z, (t.rep v, z) ∈ m) ∨ ((∀ p, Holds t (Eff.var (t.rep v)) p → x.1.prims.has p = true) ∧
        ∀ q, Free t (Eff.var (t.rep v)) q → q ∈ x.1.vars) := by
    rintro v y _ (h | h | ⟨z, h, l⟩)
    · cases h
    · exact .inl h
    · exact .inr ⟨fun p h' => l.1 p ((hc _ _ h).1 p h'), fun q h' => l.2 q ((hc _ _ h).2 q h')⟩
  have hself : ∀ v y, t.val (t.rep v) = some y → t.val (t.rep (t.rep v)) = some y :=
    fun v y h => by rw [hw.flat]; exact h
  constructor
  · intro p h
    have gen : ∀ y q, Holds t y q → (y.prims.has q = true → x.1.prims.has q = true) →
        (∀ v ∈ y.vars, Touched c0 [] m x.1 (t.rep v)) → x.1.prims.has q = true := by
      intro y q hy
      clear h
      induction hy with
      | here h => intro k _; exact k h
      | step hv hx hz ih =>
        intro k kt
        rcases rt _ _ hv (kt _ hv) with hm | hfull
        · obtain ⟨a, b⟩ := hcov.some _ _ hm hx
          refine ih (a _) (fun w hw => ?_)
          simpa using b w hw
        · exact hfull.1 _ (.step (by simp [Eff.var]) (hself _ _ hx) hz)
    exact gen e p h (hp p) ht
  · intro q h
    have gen : ∀ y q, Free t y q → (∀ v ∈ y.vars, Touched c0 [] m x.1 (t.rep v)) → q ∈ x.1.vars := by
      intro y q hy
      clear h
      induction hy with
      | @here e v hv hn =>
        intro kt
        rcases rt v e hv (kt v hv) with hm | hfull
        · exact hcov.none _ hm hn
        · refine hfull.2 _ ?_
          have := @Free.here t (Eff.var (t.rep v)) (t.rep v) (by simp [Eff.var]) (by rw [hw.flat]; exact hn)
          rwa [hw.flat] at this
      | step hv hx hz ih =>
        intro kt
        rcases rt _ _ hv (kt _ hv) with hm | hfull
        · obtain ⟨a, b⟩ := hcov.some _ _ hm hx
          exact ih (fun w hw => by simpa using b w hw)
        · exact hfull.2 _ (.step (by simp [Eff.var]) (hself _ _ hx) hz)
    exact gen e q h ht

/-- Normalizing is exact on primitive effects. -/
theorem normalize_has {t : Table} (hw : t.WF) (e : Eff) (hb : e.Below t.next) (p : Prim) :
    (normalize t e).prims.has p = true ↔ Holds t e p := by
  constructor
  · exact (flat_sound false hw.flat _ [] [] e (fun _ _ h => by cases h)).1 p
  · exact (flat_full false hw (c0 := []) (fun _ _ h => by cases h) e hb).1 p

end Ferlium.EffInfer
