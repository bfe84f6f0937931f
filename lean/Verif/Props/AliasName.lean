import Verif.Proofs.AliasName

/-!
# C98: a type that is shown by an alias is the alias with its arguments
-/

namespace Ferlium.AliasName

/-- Types written out to a depth. -/
inductive Tree
  | cut
  | hole
  | var (v : Nat)
  | node (head : Nat) (children : List Tree)

/-- A type written out. -/
def plain (g : Graph) : Nat → Nat → Tree
  | 0, _ => .cut
  | d + 1, p => match g p with
    | .var v => .var v
    | .node h cs => .node h (cs.map (plain g d))

/-- A type with `k` parameters written out with arguments for them. -/
def applied (g : Graph) (k : Nat) (arg : Nat → Option Nat) : Nat → Nat → Tree
  | 0, _ => .cut
  | d + 1, p => match g p with
    | .var v => if v < k then (match arg v with
        | some t => plain g (d + 1) t
        | none => .hole) else .var v
    | .node h cs => .node h (cs.map (applied g k arg d))

theorem applied_plain {g : Graph} {k : Nat} {s : St} (hj : ∀ x ∈ s.visited, Just g k s x) (d : Nat) :
    ∀ p a, (p, a) ∈ s.visited → applied g k s.get d p = plain g d a := by
  induction d with
  | zero => intro p a _; rfl
  | succ d ih =>
    intro p a hx
    have h := hj _ hx
    unfold Just at h
    simp only [] at h
    simp only [applied]
    cases hp : g p with
    | var v =>
      rw [hp] at h
      simp only [] at h ⊢
      split
      · rename_i hv
        rw [if_pos hv] at h
        rw [h]
      · rename_i hv
        rw [if_neg hv] at h
        simp only [plain, h]
    | node hd cs =>
      rw [hp] at h
      obtain ⟨cs', h1, h2, h3⟩ := h
      simp only [plain, h1, Tree.node.injEq, true_and]
      refine List.ext_getElem (by simpa using h2) fun i hi hi' => ?_
      simp only [List.getElem_map]
      simp only [List.length_map] at hi hi'
      refine ih _ _ (h3 _ ?_)
      rw [List.mem_iff_getElem]
      exact ⟨i, by simp [hi, hi'], by simp⟩

/-- **C98.** If a type matches the type of an alias, then the alias with the arguments that were found
is that type, written out to any depth; this holds for recursive types as well. -/
theorem C98_match_is_application {g : Graph} {k n p a : Nat} {s : St}
    (h : matchTy g k n p a ⟨[], []⟩ = some (true, s)) (d : Nat) :
    applied g k s.get d p = plain g d a := by
  obtain ⟨h1, h2⟩ := matchTy_step n p a _ s h
  refine applied_plain (fun x hx => ?_) d p a h2
  rcases h1.2 x hx with hx | hx
  · cases hx
  · exact hx

/-- `B` relates the parts of a type with parameters and the parts of a type that is its application
to `arg`. -/
def Fits (g : Graph) (k : Nat) (arg : Nat → Option Nat) (B : Nat → Nat → Prop) : Prop :=
  ∀ p a, B p a → match g p with
    | .var v => if v < k then arg v = some a else g a = .var v
    | .node h cs => ∃ cs', g a = .node h cs' ∧ List.Forall₂ B cs cs'

/-- **C98.** Every application is recognised, and the arguments that are found are its arguments. -/
theorem C98_applications_match {g : Graph} {k : Nat} {arg : Nat → Option Nat} {B : Nat → Nat → Prop}
    (hB : Fits g k arg B) {n p a : Nat} (hpa : B p a) {b : Bool} {s : St}
    (h : matchTy g k n p a ⟨[], []⟩ = some (b, s)) :
    b = true ∧ ∀ v t, s.get v = some t → arg v = some t := by
  have key : ∀ n p a s b s', B p a → (∀ v t, s.get v = some t → arg v = some t) →
      matchTy g k n p a s = some (b, s') → b = true ∧ ∀ v t, s'.get v = some t → arg v = some t := by
    intro n
    induction n with
    | zero => intro p a s b s' _ _ h; cases h
    | succ n ih =>
      intro p a s b s' hpa hq h
      have hf := hB p a hpa
      simp only [matchTy] at h
      split at h
      · cases h; exact ⟨rfl, hq⟩
      split at h
      · rename_i v hp
        rw [hp] at hf
        simp only [] at hf
        split at h
        · rename_i hv
          rw [if_pos hv] at hf
          cases hl : s.get v with
          | some t =>
            have hl1 : St.get { s with visited := (p, a) :: s.visited } v = some t := hl
            rw [hl1] at h
            simp only [Option.some.injEq, Prod.mk.injEq] at h
            obtain ⟨rfl, rfl⟩ := h
            have := hq v t hl
            rw [hf] at this
            cases this
            exact ⟨by simp, hq⟩
          | none =>
            have hl1 : St.get { s with visited := (p, a) :: s.visited } v = none := hl
            rw [hl1] at h
            simp only [Option.some.injEq, Prod.mk.injEq] at h
            obtain ⟨rfl, rfl⟩ := h
            refine ⟨rfl, fun w t hw => ?_⟩
            simp only [St.get, List.lookup_cons] at hw
            by_cases hwv : w = v
            · subst hwv
              simp only [beq_self_eq_true] at hw
              cases hw
              exact hf
            · rw [show (w == v) = false from by simpa using hwv] at hw
              exact hq w t hw
        · rename_i hv
          rw [if_neg hv] at hf
          simp only [hf, beq_self_eq_true, Option.some.injEq, Prod.mk.injEq] at h
          obtain ⟨rfl, rfl⟩ := h
          exact ⟨rfl, hq⟩
      · rename_i h1 cs h2 cs' hp ha
        rw [hp] at hf
        obtain ⟨cs2, hc1, hc2⟩ := hf
        rw [ha] at hc1
        cases hc1
        rw [if_pos ⟨rfl, hc2.length_eq⟩] at h
        refine matchAll_some B (fun p a s b s' hb hq h => ih p a s b s' hb hq h) _ _ _ _ ?_ (by exact hq) h
        intro x hx
        exact (List.forall₂_iff_zip.1 hc2).2 hx
      · rename_i h1 cs v hp ha
        rw [hp] at hf
        obtain ⟨cs2, hc1, -⟩ := hf
        rw [ha] at hc1
        cases hc1
  exact key n p a _ b s hpa (by intro v t h; cases h) h

/-- **C98.** The search ends, also on recursive types: its depth is at most the number of pairs of
types. -/
theorem C98_match_ends {g : Graph} {N : Nat} (hg : ∀ p h cs, p < N → g p = .node h cs → ∀ c ∈ cs, c < N)
    {p a : Nat} (hp : p < N) (ha : a < N) (k : Nat) :
    ∃ b s, matchTy g k (N * N + 1) p a ⟨[], []⟩ = some (b, s) := by
  obtain ⟨b, s, h, -⟩ := matchTy_ends (k := k) hg (N * N + 1) p a ⟨[], []⟩ hp ha
    ⟨List.nodup_nil, by simp⟩ (by simp)
  exact ⟨b, s, h⟩

theorem render_some {g : Graph} {n ty : Nat} {e : Entry} {x : Shown} (h : render g n ty e = some x) :
    ∃ s, matchTy g e.count n e.ty ty ⟨[], []⟩ = some (true, s) ∧
      x = ⟨e, (List.range e.count).map s.get⟩ ∧
      ¬ ((((List.range e.count).map s.get).any fun t => t.isNone) && !e.recursive) = true := by
  have key : ∀ b : Bool, (if b then none else match matchTy g e.count n e.ty ty ⟨[], []⟩ with
      | some (true, s) =>
        if (((List.range e.count).map s.get).any fun t => t.isNone) && !e.recursive then none
        else some (⟨e, (List.range e.count).map s.get⟩ : Shown)
      | _ => none) = some x → ∃ s, matchTy g e.count n e.ty ty ⟨[], []⟩ = some (true, s) ∧
      x = ⟨e, (List.range e.count).map s.get⟩ ∧
      ¬ ((((List.range e.count).map s.get).any fun t => t.isNone) && !e.recursive) = true := by
    intro b h
    cases b
    · simp only [Bool.false_eq_true, if_false] at h
      split at h
      · rename_i s hs
        split at h
        · cases h
        · rename_i hn
          exact ⟨s, hs, (Option.some.inj h).symm, hn⟩
      · cases h
    · cases h
  exact key _ h

/-- **C98.** What is shown for a type is an alias of the module with arguments, such that the alias
applied to them is the type. All arguments are given unless the alias is recursive, and there is one
for every parameter. -/
theorem C98_shown_alias_is_the_type {g : Graph} {n ty : Nat} {entries : List Entry} {x : Shown}
    (h : find g n entries ty = some x) : x.entry ∈ entries ∧ x.entry.params ≠ 0 ∧
      x.args.length = x.entry.count ∧ (x.entry.recursive = false → none ∉ x.args) ∧
      ∀ d, applied g x.entry.count (fun v => x.args[v]?.join) d x.entry.ty = plain g d ty := by
  obtain ⟨hm, -⟩ := maxBy_spec h
  obtain ⟨e, he, hr⟩ := List.mem_filterMap.1 hm
  split at hr
  · cases hr
  rename_i hne
  obtain ⟨s, hs, rfl, hany⟩ := render_some hr
  refine ⟨he, hne, by simp, fun hrec hmem => ?_, fun d => ?_⟩
  · simp only [] at hrec hmem
    apply hany
    simp only [hrec, Bool.not_false, Bool.and_true, List.any_eq_true]
    exact ⟨none, hmem, rfl⟩
  · have hap := C98_match_is_application hs d
    simp only []
    rw [← hap]
    have hcong : ∀ d q, applied g e.count (fun v => ((List.range e.count).map s.get)[v]?.join) d q =
        applied g e.count s.get d q := by
      intro d
      induction d with
      | zero => intro q; rfl
      | succ d ih =>
        intro q
        simp only [applied]
        cases g q with
        | var v =>
          simp only []
          split
          · rename_i hv
            have : ((List.range e.count).map s.get)[v]?.join = s.get v := by
              simp [hv]
            rw [this]
          · rfl
        | node hd cs =>
          simp only [Tree.node.injEq, true_and]
          exact List.map_congr_left fun c _ => ih c
    exact hcong d e.ty

/-- **C98.** Which alias is shown does not depend on the order in which aliases were defined. -/
theorem C98_order_of_definitions {g : Graph} {n ty : Nat} {entries entries' : List Entry}
    (hp : entries.Perm entries') (hn : (entries.map (·.name)).Nodup) :
    find g n entries ty = find g n entries' ty := by
  have hperm := hp.filterMap fun e => if e.params = 0 then none else render g n ty e
  have hsome : ∀ l : List Shown, maxBy score l = none ↔ l = [] := by
    intro l
    cases l <;> simp [maxBy]
  unfold find
  cases h1 : maxBy score (entries.filterMap fun e => if e.params = 0 then none else render g n ty e) with
  | none =>
    rw [hsome] at h1
    rw [h1] at hperm
    rw [List.nil_perm.1 hperm]
    rfl
  | some x =>
    cases h2 : maxBy score (entries'.filterMap fun e => if e.params = 0 then none else render g n ty e) with
    | none =>
      rw [hsome] at h2
      rw [h2] at hperm
      rw [List.perm_nil.1 hperm] at h1
      cases h1
    | some y =>
      obtain ⟨hx, hx'⟩ := maxBy_spec h1
      obtain ⟨hy, hy'⟩ := maxBy_spec h2
      have hyx := hx' y (hperm.mem_iff.2 hy)
      have hxy := hy' x (hperm.mem_iff.1 hx)
      have heq : score x y = .eq := by
        have hs := Std.OrientedCmp.eq_swap (cmp := score) (a := x) (b := y)
        cases hsc : score x y with
        | eq => rfl
        | lt =>
          rw [hsc] at hs
          cases hyc : score y x <;> rw [hyc] at hs hyx <;> first | (cases hs; done) | (cases hyx; done)
        | gt => rw [hsc] at hxy; cases hxy
      have hname := score_eq heq
      obtain ⟨e, he, hr⟩ := List.mem_filterMap.1 hx
      obtain ⟨e', he', hr'⟩ := List.mem_filterMap.1 (hperm.mem_iff.2 hy)
      have hent : ∀ {e : Entry} {z : Shown},
          (if e.params = 0 then none else render g n ty e) = some z → z.entry = e := by
        intro e z hz
        split at hz
        · cases hz
        · obtain ⟨s, -, rfl, -⟩ := render_some hz
          rfl
      rw [hent hr, hent hr'] at hname
      have : e = e' := List.inj_on_of_nodup_map hn he he' hname
      subst this
      rw [hr] at hr'
      exact hr'

/-- **C98.** No other alias that fits has more arguments that are known; and among aliases with the
same arguments known, none has a shorter name. -/
theorem C98_best_alias_is_shown {g : Graph} {n ty : Nat} {entries : List Entry} {x : Shown}
    (h : find g n entries ty = some x) {e : Entry} (he : e ∈ entries) {y : Shown}
    (hy : find g n [e] ty = some y) :
    y.args.countP (·.isSome) ≤ x.args.countP (·.isSome) ∧
      (y.args.map (·.isSome) = x.args.map (·.isSome) → x.entry.name.length ≤ y.entry.name.length) := by
  obtain ⟨-, hmax⟩ := maxBy_spec h
  obtain ⟨hm, -⟩ := maxBy_spec hy
  obtain ⟨e', he', hr⟩ := List.mem_filterMap.1 hm
  cases List.mem_singleton.1 he'
  have hle := hmax y (List.mem_filterMap.2 ⟨e, he, hr⟩)
  have hc : y.concrete ≤ x.concrete := by
    by_contra hlt
    have : compare y.concrete x.concrete = .gt := Nat.compare_eq_gt.2 (by omega)
    simp [score, this] at hle
  refine ⟨by simpa [Shown.concrete, List.countP_eq_length_filter] using hc, fun heq => ?_⟩
  by_contra hlt
  have h1 : y.concrete = x.concrete := by
    have h2 : ∀ l : List (Option Nat), (l.filter (·.isSome)).length = ((l.map (·.isSome)).filter id).length := by
      intro l
      rw [List.filter_map, List.length_map]
      rfl
    simp only [Shown.concrete, h2, heq]
  have h2 : (y.args.map fun a => if a.isSome then 1 else 0) =
      (x.args.map fun a => if a.isSome then 1 else 0) := by
    have h3 : ∀ l : List (Option Nat), (l.map fun a => if a.isSome then 1 else 0) =
        (l.map (·.isSome)).map fun b => if b then 1 else 0 := by
      intro l
      simp
    rw [h3, h3, heq]
  have h4 : compare x.entry.name.length y.entry.name.length = .gt := Nat.compare_eq_gt.2 (by omega)
  have h5 : List.compareLex compare (x.args.map fun a => if a.isSome then 1 else 0)
      (x.args.map fun a => if a.isSome then 1 else 0) = .eq := by
    exact Std.ReflCmp.compare_self
  simp [score, h1, h2, h4, h5] at hle

/-- `q` is a part of `p`. -/
inductive Part (g : Graph) (p : Nat) : Nat → Prop
  | self : Part g p p
  | child {q c h : Nat} {cs : List Nat} : Part g p q → g q = .node h cs → c ∈ cs → Part g p c

/-- **C98.** If an alias other than a bare parameter has the type as an application, and each of its
parameters occurs in it or it is recursive, then some alias is shown. -/
theorem C98_applications_are_shown {g : Graph} {n ty : Nat} {entries : List Entry} {e : Entry}
    (he : e ∈ entries) (hpar : e.params ≠ 0)
    (hocc : e.recursive = true ∨ ∀ v < e.count, ∃ q, Part g e.ty q ∧ g q = .var v)
    {h : Nat} {cs : List Nat} (hty : g e.ty = .node h cs) {arg : Nat → Option Nat}
    {B : Nat → Nat → Prop} (hB : Fits g e.count arg B) (hpa : B e.ty ty)
    (hends : ∃ b s, matchTy g e.count n e.ty ty ⟨[], []⟩ = some (b, s)) :
    ∃ x, find g n entries ty = some x := by
  obtain ⟨b, s, hm⟩ := hends
  obtain ⟨rfl, -⟩ := C98_applications_match hB hpa hm
  obtain ⟨hstep, hin⟩ := matchTy_step n _ _ _ s hm
  have hj : ∀ x ∈ s.visited, Just g e.count s x := fun x hx => by
    rcases hstep.2 x hx with hx | hx
    · cases hx
    · exact hx
  have hpart : ∀ q, Part g e.ty q → ∃ a, (q, a) ∈ s.visited := by
    intro q hq
    induction hq with
    | self => exact ⟨_, hin⟩
    | child hq hg hc ih =>
      obtain ⟨a, ha⟩ := ih
      have hx := hj _ ha
      unfold Just at hx
      simp only [hg] at hx
      obtain ⟨cs', -, h2, h3⟩ := hx
      obtain ⟨i, hi, rfl⟩ := List.mem_iff_getElem.1 hc
      exact ⟨cs'[i]'(h2 ▸ hi), h3 _ (List.mem_iff_getElem.2 ⟨i, by simp; omega, by simp⟩)⟩
  have hr : ∃ y, render g n ty e = some y := by
    rcases hocc with hrec | hocc
    · simp [render, hty, hm, hrec]
    · have hall : (((List.range e.count).map s.get).any fun t => t.isNone) = false := by
        rw [List.any_eq_false]
        intro t ht
        obtain ⟨v, hv, rfl⟩ := List.mem_map.1 ht
        have hv := List.mem_range.1 hv
        obtain ⟨q, hq, hgq⟩ := hocc v hv
        obtain ⟨a, ha⟩ := hpart q hq
        have hx := hj _ ha
        unfold Just at hx
        simp only [hgq, if_pos hv] at hx
        simp [hx]
      refine ⟨⟨e, (List.range e.count).map s.get⟩, ?_⟩
      simp only [render, hty, hm, Bool.false_eq_true, if_false]
      rw [hall]
      rfl
  obtain ⟨y, hr⟩ := hr
  have hmem : y ∈ entries.filterMap fun e => if e.params = 0 then none else render g n ty e :=
    List.mem_filterMap.2 ⟨e, he, by rw [if_neg hpar, hr]⟩
  unfold find
  cases hl : entries.filterMap fun e => if e.params = 0 then none else render g n ty e with
  | nil => rw [hl] at hmem; cases hmem
  | cons z t => exact ⟨_, rfl⟩

/-! ## Types -/

namespace Example

/-- 0 and 1 are parameters, 2 is a pair of them, 3 and 4 are types without parts, 5 is the pair of 3
and 4; 6 is a list of 0 (a variant of nothing and an element with such a list), 7 one of 3. -/
def g : Graph
  | 0 => .var 0
  | 1 => .var 1
  | 2 => .node 10 [0, 1]
  | 3 => .node 11 []
  | 4 => .node 12 []
  | 5 => .node 10 [3, 4]
  | 6 => .node 13 [0, 6]
  | 7 => .node 13 [3, 7]
  | _ => .node 14 []

/-- `Pair<A, B>`, `Couple<A, B>` and a recursive `List<A>`. -/
def entries : List Entry := [⟨[80], 2, 2, 2, false⟩, ⟨[67, 67], 2, 2, 2, false⟩, ⟨[76], 1, 1, 6, true⟩]

/-- The pair is shown by the shorter name, and the list by its own. -/
example : find g 65 entries 5 = some ⟨⟨[80], 2, 2, 2, false⟩, [some 3, some 4]⟩ ∧
    find g 65 entries 7 = some ⟨⟨[76], 1, 1, 6, true⟩, [some 3]⟩ ∧ find g 65 entries 4 = none := by
  decide +kernel

/-- The recursive list with its argument is the type, to any depth. -/
example (d : Nat) : applied g 1 (fun v => [some 3][v]?.join) d 6 = plain g d 7 :=
  (C98_shown_alias_is_the_type (x := ⟨⟨[76], 1, 1, 6, true⟩, [some 3]⟩) (n := 65) (entries := entries)
    (by decide +kernel)).2.2.2.2 d

/-- The order of definitions does not matter here. -/
example : find g 65 entries 5 = find g 65 entries.reverse 5 :=
  C98_order_of_definitions (List.reverse_perm _).symm (by decide)

/-- The list of 3 is an application of the list, which is found. -/
example : ∃ s, matchTy g 1 65 6 7 ⟨[], []⟩ = some (true, s) := by
  obtain ⟨b, s, h⟩ := C98_match_ends (g := g) (N := 8) (by
    intro p h cs hp he c hc
    interval_cases p <;> cases he <;> simp at hc <;> omega) (p := 6) (a := 7) (by decide) (by decide) 1
  have := C98_applications_match (arg := fun v => if v = 0 then some 3 else none)
    (B := fun p a => (p = 6 ∧ a = 7) ∨ (p = 0 ∧ a = 3)) (by
      rintro p a (⟨rfl, rfl⟩ | ⟨rfl, rfl⟩)
      · exact ⟨[3, 7], rfl, by simp⟩
      · rfl) (.inl ⟨rfl, rfl⟩) h
  exact ⟨s, by rw [h, this.1]⟩

/-- The pair has both parameters as parts and the pair of 3 and 4 as an application: it is shown. -/
example : ∃ x, find g 65 entries 5 = some x :=
  C98_applications_are_shown (e := ⟨[80], 2, 2, 2, false⟩) (h := 10) (cs := [0, 1])
    (arg := fun v => some (v + 3)) (B := fun p a => (p = 2 ∧ a = 5) ∨ (p = 0 ∧ a = 3) ∨ (p = 1 ∧ a = 4))
    (by decide) (by decide)
    (.inr fun v hv => by
      have hv : v < 2 := hv
      interval_cases v
      · exact ⟨0, .child .self rfl (by simp), rfl⟩
      · exact ⟨1, .child .self rfl (by simp), rfl⟩) rfl
    (by
      rintro p a (⟨rfl, rfl⟩ | ⟨rfl, rfl⟩ | ⟨rfl, rfl⟩)
      · exact ⟨[3, 4], rfl, by simp⟩
      · rfl
      · rfl) (.inl ⟨rfl, rfl⟩) (by
      refine ⟨true, ⟨[(1, 4), (0, 3)], [(1, 4), (0, 3), (2, 5)]⟩, ?_⟩
      decide +kernel)

/-- The longer of the two names of pairs fits as well, and is not shown. -/
example : [67, 67].length ≥ [80].length :=
  (C98_best_alias_is_shown (g := g) (n := 65) (ty := 5) (entries := entries)
    (x := ⟨⟨[80], 2, 2, 2, false⟩, [some 3, some 4]⟩) (e := ⟨[67, 67], 2, 2, 2, false⟩)
    (y := ⟨⟨[67, 67], 2, 2, 2, false⟩, [some 3, some 4]⟩) (by decide +kernel) (by decide)
    (by decide +kernel)).2 rfl

end Example

end Ferlium.AliasName
