import Verif.Model.TypeCycle
import Verif.Props.Graph
import Mathlib.Tactic

/-!
Property C53: recursive type declarations.
-/

namespace Ferlium.TypeCycle

open Ferlium.Graph

/-! ### Specification -/

/-- The type expression mentions declaration `i` outside of the payloads of its variant types: a value of
the type cannot avoid it by choosing a variant. -/
inductive Direct (i : Nat) : PTy → Prop
  | here {args : List PTy} : Direct i (.path (some i) args)
  | arg {d : Option Nat} {args : List PTy} {a : PTy} : a ∈ args → Direct i a → Direct i (.path d args)
  | field {fs : List PTy} {f : PTy} : f ∈ fs → Direct i f → Direct i (.product fs)
  | element {e : PTy} : Direct i e → Direct i (.array e)
  | input {args : List PTy} {r a : PTy} : a ∈ args → Direct i a → Direct i (.function args r)
  | output {args : List PTy} {r : PTy} : Direct i r → Direct i (.function args r)

/-- The type expression mentions declaration `i` anywhere. -/
inductive Mentions (i : Nat) : PTy → Prop
  | here {args : List PTy} : Mentions i (.path (some i) args)
  | arg {d : Option Nat} {args : List PTy} {a : PTy} : a ∈ args → Mentions i a → Mentions i (.path d args)
  | payload {ps : List PTy} {p : PTy} : p ∈ ps → Mentions i p → Mentions i (.variant ps)
  | field {fs : List PTy} {f : PTy} : f ∈ fs → Mentions i f → Mentions i (.product fs)
  | element {e : PTy} : Mentions i e → Mentions i (.array e)
  | input {args : List PTy} {r a : PTy} : a ∈ args → Mentions i a → Mentions i (.function args r)
  | output {args : List PTy} {r : PTy} : Mentions i r → Mentions i (.function args r)

/-- `p` is a payload of a variant type of the expression that is not itself inside a payload. -/
inductive Payload (p : PTy) : PTy → Prop
  | here {ps : List PTy} : p ∈ ps → Payload p (.variant ps)
  | arg {d : Option Nat} {args : List PTy} {a : PTy} : a ∈ args → Payload p a → Payload p (.path d args)
  | field {fs : List PTy} {f : PTy} : f ∈ fs → Payload p f → Payload p (.product fs)
  | element {e : PTy} : Payload p e → Payload p (.array e)
  | input {args : List PTy} {r a : PTy} : a ∈ args → Payload p a → Payload p (.function args r)
  | output {args : List PTy} {r : PTy} : Payload p r → Payload p (.function args r)

/-- Some part of declaration `a` satisfies `P`. -/
def Part (decls : List (List PTy)) (a : Nat) (P : PTy → Prop) : Prop :=
  ∃ l t, decls[a]? = some l ∧ t ∈ l ∧ P t

/-- Declaration `a` of the group needs declaration `b` of the group, whatever variants are chosen. -/
def Needs (decls : List (List PTy)) (scc : List Nat) (a b : Nat) : Prop :=
  a ∈ scc ∧ b ∈ scc ∧ Part decls a (Direct b)

/-- The types that have a finite value.  Arrays can be empty, functions are values. -/
inductive Inhabited (decls : List (List PTy)) : PTy → Prop
  | leaf : Inhabited decls .leaf
  | foreign {args : List PTy} : Inhabited decls (.path none args)
  | decl {i : Nat} {args l : List PTy} {t : PTy} : decls[i]? = some (t :: l) → Inhabited decls t →
      Inhabited decls (.path (some i) args)
  | variant {ps : List PTy} {p : PTy} : p ∈ ps → Inhabited decls p → Inhabited decls (.variant ps)
  | product {fs : List PTy} : (∀ f ∈ fs, Inhabited decls f) → Inhabited decls (.product fs)
  | array {e : PTy} : Inhabited decls (.array e)
  | function {args : List PTy} {r : PTy} : Inhabited decls (.function args r)

/-! ### What is collected -/

theorem add_unguarded (i : Info) (d : Option Nat) (k : Nat) :
    (k ∈ (i.add d false).unguarded ↔ k ∈ i.unguarded ∨ d = some k) ∧
    (k ∈ (i.add d true).unguarded ↔ k ∈ i.unguarded) ∧
    (∀ g, k ∈ (i.add d g).refs ↔ k ∈ i.refs ∨ d = some k) ∧
    ∀ g, (i.add d g).payloads = i.payloads := by
  cases d with
  | none => simp [Info.add]
  | some d =>
    refine ⟨?_, ?_, ?_, ?_⟩
    · simp only [Info.add, Bool.false_eq_true, if_false, List.mem_cons, Option.some.injEq]
      constructor
      · rintro (h | h)
        · exact Or.inr h.symm
        · exact Or.inl h
      · rintro (h | h)
        · exact Or.inr h
        · exact Or.inl h.symm
    · simp [Info.add]
    · intro g
      have hc : d = k ↔ k = d := eq_comm
      cases g <;> simp [Info.add, Info.refs, hc] <;> tauto
    · intro g
      cases g <;> rfl

/-- What `collect` adds, for a type. -/
structure Collected (t : PTy) : Prop where
  free : ∀ i k, k ∈ (collect t false i).unguarded ↔ k ∈ i.unguarded ∨ Direct k t
  bound : ∀ i k, k ∈ (collect t true i).unguarded ↔ k ∈ i.unguarded
  refs : ∀ i g k, k ∈ (collect t g i).refs ↔ k ∈ i.refs ∨ Mentions k t
  payloads : ∀ i g r, r ∈ (collect t g i).payloads ↔
    r ∈ i.payloads ∨ ∃ p, Payload p t ∧ r = (collect p true Info.empty).refs

/-- What `collectAll` adds. -/
structure CollectedAll (l : List PTy) : Prop where
  free : ∀ i k, k ∈ (collectAll l false i).unguarded ↔ k ∈ i.unguarded ∨ ∃ t ∈ l, Direct k t
  bound : ∀ i k, k ∈ (collectAll l true i).unguarded ↔ k ∈ i.unguarded
  refs : ∀ i g k, k ∈ (collectAll l g i).refs ↔ k ∈ i.refs ∨ ∃ t ∈ l, Mentions k t
  payloads : ∀ i g r, r ∈ (collectAll l g i).payloads ↔
    r ∈ i.payloads ∨ ∃ t ∈ l, ∃ p, Payload p t ∧ r = (collect p true Info.empty).refs

/-- What `collectPayloads` adds. -/
structure CollectedPayloads (l : List PTy) : Prop where
  unguarded : ∀ i k, k ∈ (collectPayloads l i).unguarded ↔ k ∈ i.unguarded
  refs : ∀ i k, k ∈ (collectPayloads l i).refs ↔ k ∈ i.refs ∨ ∃ t ∈ l, Mentions k t
  payloads : ∀ i r, r ∈ (collectPayloads l i).payloads ↔
    r ∈ i.payloads ∨ ∃ p ∈ l, r = (collect p true Info.empty).refs

theorem collected (t : PTy) : Collected t := by
  refine PTy.rec (motive_1 := Collected) (motive_2 := fun l => CollectedAll l ∧ CollectedPayloads l)
    ?_ ?_ ?_ ?_ ?_ ?_ ?_ ?_ ?_ t
  · refine ⟨?_, ?_, ?_, ?_⟩
    · intro i k; simp only [collect]; exact ⟨Or.inl, fun h => h.elim id (fun h => by cases h)⟩
    · intro i k; simp [collect]
    · intro i g k; simp only [collect]; exact ⟨Or.inl, fun h => h.elim id (fun h => by cases h)⟩
    · intro i g r; simp only [collect]; exact ⟨Or.inl, fun h => h.elim id (fun ⟨_, h, _⟩ => by cases h)⟩
  · refine ⟨?_, ?_, ?_, ?_⟩
    · intro i k; simp only [collect]; exact ⟨Or.inl, fun h => h.elim id (fun h => by cases h)⟩
    · intro i k; simp [collect]
    · intro i g k; simp only [collect]; exact ⟨Or.inl, fun h => h.elim id (fun h => by cases h)⟩
    · intro i g r; simp only [collect]; exact ⟨Or.inl, fun h => h.elim id (fun ⟨_, h, _⟩ => by cases h)⟩
  · rintro d args ⟨ih, -⟩
    refine ⟨?_, ?_, ?_, ?_⟩
    · intro i k
      rw [collect, ih.free, (add_unguarded i d k).1, or_assoc]
      refine or_congr Iff.rfl ⟨?_, ?_⟩
      · rintro (rfl | ⟨a, ha, h⟩)
        · exact .here
        · exact .arg ha h
      · intro h
        cases h with
        | here => exact Or.inl rfl
        | arg ha h => exact Or.inr ⟨_, ha, h⟩
    · intro i k
      rw [collect, ih.bound, (add_unguarded i d k).2.1]
    · intro i g k
      rw [collect, ih.refs, (add_unguarded i d k).2.2.1, or_assoc]
      refine or_congr Iff.rfl ⟨?_, ?_⟩
      · rintro (rfl | ⟨a, ha, h⟩)
        · exact .here
        · exact .arg ha h
      · intro h
        cases h with
        | here => exact Or.inl rfl
        | arg ha h => exact Or.inr ⟨_, ha, h⟩
    · intro i g r
      rw [collect, ih.payloads, (add_unguarded i d 0).2.2.2]
      refine or_congr Iff.rfl ⟨?_, ?_⟩
      · rintro ⟨t, ht, p, hp, he⟩
        exact ⟨p, .arg ht hp, he⟩
      · rintro ⟨p, hp, he⟩
        cases hp with
        | arg ha h => exact ⟨_, ha, p, h, he⟩
  · rintro ps ⟨-, ih⟩
    refine ⟨?_, ?_, ?_, ?_⟩
    · intro i k
      rw [collect, ih.unguarded]
      exact ⟨Or.inl, fun h => h.elim id (fun h => by cases h)⟩
    · intro i k
      rw [collect, ih.unguarded]
    · intro i g k
      rw [collect, ih.refs]
      refine or_congr Iff.rfl ⟨?_, ?_⟩
      · rintro ⟨t, ht, h⟩; exact .payload ht h
      · intro h
        cases h with
        | payload hp h => exact ⟨_, hp, h⟩
    · intro i g r
      rw [collect, ih.payloads]
      refine or_congr Iff.rfl ⟨?_, ?_⟩
      · rintro ⟨p, hp, he⟩; exact ⟨p, .here hp, he⟩
      · rintro ⟨p, hp, he⟩
        cases hp with
        | here hp => exact ⟨p, hp, he⟩
  · rintro fs ⟨ih, -⟩
    refine ⟨?_, ?_, ?_, ?_⟩
    · intro i k
      rw [collect, ih.free]
      refine or_congr Iff.rfl ⟨?_, ?_⟩
      · rintro ⟨t, ht, h⟩; exact .field ht h
      · intro h
        cases h with
        | field hp h => exact ⟨_, hp, h⟩
    · intro i k
      rw [collect, ih.bound]
    · intro i g k
      rw [collect, ih.refs]
      refine or_congr Iff.rfl ⟨?_, ?_⟩
      · rintro ⟨t, ht, h⟩; exact .field ht h
      · intro h
        cases h with
        | field hp h => exact ⟨_, hp, h⟩
    · intro i g r
      rw [collect, ih.payloads]
      refine or_congr Iff.rfl ⟨?_, ?_⟩
      · rintro ⟨t, ht, p, hp, he⟩; exact ⟨p, .field ht hp, he⟩
      · rintro ⟨p, hp, he⟩
        cases hp with
        | field ha h => exact ⟨_, ha, p, h, he⟩
  · intro e ih
    refine ⟨?_, ?_, ?_, ?_⟩
    · intro i k
      rw [collect, ih.free]
      refine or_congr Iff.rfl ⟨.element, ?_⟩
      intro h
      cases h with
      | element h => exact h
    · intro i k
      rw [collect, ih.bound]
    · intro i g k
      rw [collect, ih.refs]
      refine or_congr Iff.rfl ⟨.element, ?_⟩
      intro h
      cases h with
      | element h => exact h
    · intro i g r
      rw [collect, ih.payloads]
      refine or_congr Iff.rfl ⟨?_, ?_⟩
      · rintro ⟨p, hp, he⟩; exact ⟨p, .element hp, he⟩
      · rintro ⟨p, hp, he⟩
        cases hp with
        | element h => exact ⟨p, h, he⟩
  · rintro args ret ⟨iha, -⟩ ihr
    refine ⟨?_, ?_, ?_, ?_⟩
    · intro i k
      rw [collect, ihr.free, iha.free, or_assoc]
      refine or_congr Iff.rfl ⟨?_, ?_⟩
      · rintro (⟨t, ht, h⟩ | h)
        · exact .input ht h
        · exact .output h
      · intro h
        cases h with
        | input ha h => exact Or.inl ⟨_, ha, h⟩
        | output h => exact Or.inr h
    · intro i k
      rw [collect, ihr.bound, iha.bound]
    · intro i g k
      rw [collect, ihr.refs, iha.refs, or_assoc]
      refine or_congr Iff.rfl ⟨?_, ?_⟩
      · rintro (⟨t, ht, h⟩ | h)
        · exact .input ht h
        · exact .output h
      · intro h
        cases h with
        | input ha h => exact Or.inl ⟨_, ha, h⟩
        | output h => exact Or.inr h
    · intro i g r
      rw [collect, ihr.payloads, iha.payloads, or_assoc]
      refine or_congr Iff.rfl ⟨?_, ?_⟩
      · rintro (⟨t, ht, p, hp, he⟩ | ⟨p, hp, he⟩)
        · exact ⟨p, .input ht hp, he⟩
        · exact ⟨p, .output hp, he⟩
      · rintro ⟨p, hp, he⟩
        cases hp with
        | input ha h => exact Or.inl ⟨_, ha, p, h, he⟩
        | output h => exact Or.inr ⟨p, h, he⟩
  · refine ⟨⟨?_, ?_, ?_, ?_⟩, ?_, ?_, ?_⟩ <;> intros <;> simp [collectAll, collectPayloads]
  · rintro t ts ih ⟨ihs, ihp⟩
    refine ⟨⟨?_, ?_, ?_, ?_⟩, ?_, ?_, ?_⟩
    · intro i k
      rw [collectAll, ihs.free, ih.free]
      simp only [List.mem_cons, exists_eq_or_imp, or_assoc]
    · intro i k
      rw [collectAll, ihs.bound, ih.bound]
    · intro i g k
      rw [collectAll, ihs.refs, ih.refs]
      simp only [List.mem_cons, exists_eq_or_imp, or_assoc]
    · intro i g r
      rw [collectAll, ihs.payloads, ih.payloads]
      simp only [List.mem_cons, exists_eq_or_imp, or_assoc]
    · intro i k
      rw [collectPayloads, ihp.unguarded]
      simp only [List.mem_append, ih.bound]
      simp [Info.empty]
    · intro i k
      rw [collectPayloads, ihp.refs]
      have hr := ih.refs Info.empty true k
      simp only [Info.refs, Info.empty, List.mem_append, List.append_nil, List.not_mem_nil, false_or] at hr ⊢
      simp only [List.mem_cons, exists_eq_or_imp, ← hr]
      tauto
    · intro i r
      rw [collectPayloads, ihp.payloads]
      simp only [List.mem_append, List.mem_cons, exists_eq_or_imp, or_assoc, List.not_mem_nil, false_or]

theorem collectedAll (l : List PTy) : CollectedAll l := by
  induction l with
  | nil => refine ⟨?_, ?_, ?_, ?_⟩ <;> intros <;> simp [collectAll]
  | cons t ts ihs =>
    have ih := collected t
    refine ⟨?_, ?_, ?_, ?_⟩
    · intro i k
      rw [collectAll, ihs.free, ih.free]
      simp only [List.mem_cons, exists_eq_or_imp, or_assoc]
    · intro i k
      rw [collectAll, ihs.bound, ih.bound]
    · intro i g k
      rw [collectAll, ihs.refs, ih.refs]
      simp only [List.mem_cons, exists_eq_or_imp, or_assoc]
    · intro i g r
      rw [collectAll, ihs.payloads, ih.payloads]
      simp only [List.mem_cons, exists_eq_or_imp, or_assoc]

theorem infoOf_unguarded (decls : List (List PTy)) (a b : Nat) :
    b ∈ (infoOf decls a).unguarded ↔ Part decls a (Direct b) := by
  unfold infoOf cycleInfo Part
  rw [(collectedAll _).free]
  cases h : decls[a]? with
  | none => simp [Info.empty]
  | some l => simp [Info.empty]

theorem infoOf_payloads (decls : List (List PTy)) (scc : List Nat) (a : Nat) :
    ((infoOf decls a).payloads.any fun refs => refs.all fun r => !scc.contains r) = true ↔
      ∃ p, Part decls a (Payload p) ∧ ∀ r ∈ scc, ¬ Mentions r p := by
  have hp : ∀ r, r ∈ (infoOf decls a).payloads ↔
      ∃ p, Part decls a (Payload p) ∧ r = (collect p true Info.empty).refs := by
    intro r
    unfold infoOf cycleInfo Part
    rw [(collectedAll _).payloads]
    cases h : decls[a]? with
    | none => simp [Info.empty]
    | some l =>
      simp only [Info.empty, List.not_mem_nil, false_or, Option.getD_some, Option.some.injEq]
      constructor
      · rintro ⟨t, ht, p, hp, he⟩
        exact ⟨p, ⟨l, t, rfl, ht, hp⟩, he⟩
      · rintro ⟨p, ⟨l', t, rfl, ht, hp⟩, he⟩
        exact ⟨t, ht, p, hp, he⟩
  have hm : ∀ p k, k ∈ (collect p true Info.empty).refs ↔ Mentions k p := by
    intro p k
    rw [(collected p).refs]
    simp [Info.refs, Info.empty]
  simp only [List.any_eq_true, List.all_eq_true, Bool.not_eq_true', List.contains_eq_mem, decide_eq_false_iff_not]
  constructor
  · rintro ⟨r, hr, hall⟩
    obtain ⟨p, hpp, rfl⟩ := (hp r).mp hr
    exact ⟨p, hpp, fun k hk hmk => hall k ((hm p k).mpr hmk) hk⟩
  · rintro ⟨p, hpp, hall⟩
    exact ⟨_, (hp _).mpr ⟨p, hpp, rfl⟩, fun k hk hks => hall k hks ((hm p k).mp hk)⟩

/-! ### The graph of needs -/

theorem edge_iff {decls : List (List PTy)} {scc : List Nat} {a b : Nat} (ha : a ∈ scc)
    (hb : b ∈ scc) : Edge (unguardedGraph decls scc) (scc.idxOf a) (scc.idxOf b) ↔ Needs decls scc a b := by
  have hga : scc[scc.idxOf a]? = some a := by
    rw [List.getElem?_eq_getElem (List.idxOf_lt_length_iff.mpr ha)]
    simp
  unfold Edge unguardedGraph
  simp only [List.getElem?_map, hga, Option.map_some, Option.some.injEq, exists_eq_left', List.mem_map,
    List.mem_filter, List.contains_eq_mem, decide_eq_true_eq, infoOf_unguarded]
  constructor
  · rintro ⟨d, ⟨h1, h2⟩, h3⟩
    have : d = b := (List.idxOf_inj h2).mp h3
    subst this
    exact ⟨ha, hb, h1⟩
  · rintro ⟨_, _, h⟩
    exact ⟨b, ⟨h, hb⟩, rfl⟩

theorem graph_wf (decls : List (List PTy)) (scc : List Nat) : WF (unguardedGraph decls scc) := by
  rintro u v ⟨l, hl, hv⟩
  unfold unguardedGraph at hl ⊢
  rw [List.length_map]
  rw [List.getElem?_map] at hl
  cases hu : scc[u]? with
  | none => rw [hu] at hl; simp at hl
  | some i =>
    rw [hu] at hl
    simp only [Option.map_some, Option.some.injEq] at hl
    subst hl
    simp only [List.mem_map, List.mem_filter, List.contains_eq_mem, decide_eq_true_eq] at hv
    obtain ⟨d, ⟨_, hd⟩, rfl⟩ := hv
    exact List.idxOf_lt_length_iff.mpr hd

theorem cycle_iff {decls : List (List PTy)} {scc : List Nat} (hnd : scc.Nodup) :
    (∃ u, Relation.TransGen (Edge (unguardedGraph decls scc)) u u) ↔
      ∃ a, Relation.TransGen (Needs decls scc) a a := by
  have hlt : ∀ {u v}, Edge (unguardedGraph decls scc) u v → u < scc.length := by
    rintro u v ⟨l, hl, _⟩
    have := (List.getElem?_eq_some_iff.mp hl).1
    simpa [unguardedGraph] using this
  constructor
  · rintro ⟨u, hu⟩
    have hmap : ∀ {x y}, Relation.TransGen (Edge (unguardedGraph decls scc)) x y → ∀ (hx : x < scc.length)
        (hy : y < scc.length), Relation.TransGen (Needs decls scc) scc[x] scc[y] := by
      intro x y hxy
      have hstep : ∀ {p q} (hp : p < scc.length) (hq : q < scc.length),
          Edge (unguardedGraph decls scc) p q → Needs decls scc scc[p] scc[q] := by
        intro p q hp hq he
        refine (edge_iff (List.getElem_mem hp) (List.getElem_mem hq)).mp ?_
        rwa [hnd.idxOf_getElem, hnd.idxOf_getElem]
      induction hxy with
      | single he => exact fun hx hy => .single (hstep hx hy he)
      | tail h1 he ih =>
        intro hx hy
        exact .tail (ih hx (hlt he)) (hstep (hlt he) hy he)
    have hul : u < scc.length := by
      obtain ⟨v, hv, _⟩ := Relation.TransGen.head'_iff.mp hu
      exact hlt hv
    exact ⟨scc[u], hmap hu hul hul⟩
  · rintro ⟨a, ha⟩
    refine ⟨scc.idxOf a, ?_⟩
    exact Relation.TransGen.lift (fun x => scc.idxOf x) (fun x y h => (edge_iff h.1 h.2.1).mpr h) a a ha

theorem recursive_group_iff {decls : List (List PTy)} {scc : List Nat} {sccs : List (List Nat)}
    (hs : findSccs (unguardedGraph decls scc) = some sccs) :
    sccs.any (isRecursiveGroup (unguardedGraph decls scc)) = true ↔
      ∃ u, Relation.TransGen (Edge (unguardedGraph decls scc)) u u := by
  have hwf := graph_wf decls scc
  obtain ⟨sccs', h1, hperm, hne, hcls⟩ := C23_groups_are_the_mutual_recursion_classes _ hwf
  rw [hs] at h1
  cases h1
  have hflag := C23_recursive_flag _ hwf sccs hs
  rw [List.any_eq_true]
  constructor
  · rintro ⟨c, hc, h⟩
    obtain ⟨u, hu⟩ := List.exists_mem_of_ne_nil c (hne c hc)
    exact ⟨u, (hflag c hc u hu).mp h⟩
  · rintro ⟨u, hu⟩
    have hul : u < (unguardedGraph decls scc).length := by
      obtain ⟨v, hv, _⟩ := Relation.TransGen.tail'_iff.mp hu
      exact hwf _ _ (by assumption)
    have hmem : u ∈ sccs.flatten := hperm.symm.subset (List.mem_range.mpr hul)
    obtain ⟨c, hc, huc⟩ := List.mem_flatten.mp hmem
    exact ⟨c, hc, (hflag c hc u huc).mpr hu⟩

/-! ### Properties -/

/-- **C53** The check of a recursive group of type declarations always gives an answer, and the answer is
exactly: the group is rejected as a product cycle if some declaration needs itself through a chain of
declarations of the group, whatever variants are chosen; otherwise it is rejected as having no terminating
variant if every variant payload mentions the group; otherwise it is accepted. -/
theorem C53_check_exact (decls : List (List PTy)) (scc : List Nat) (hnd : scc.Nodup) :
    ∃ r, validate decls scc = some r ∧
      (r = .error .productCycleWithoutSum ↔ ∃ a, Relation.TransGen (Needs decls scc) a a) ∧
      (r = .ok () ↔ (¬ ∃ a, Relation.TransGen (Needs decls scc) a a) ∧
        ∃ a ∈ scc, ∃ p, Part decls a (Payload p) ∧ ∀ r ∈ scc, ¬ Mentions r p) := by
  obtain ⟨sccs, hs, _⟩ := C23_groups_are_the_mutual_recursion_classes _ (graph_wf decls scc)
  have hrec := (recursive_group_iff hs).trans (cycle_iff hnd)
  have hterm : (scc.any fun i => (infoOf decls i).payloads.any fun refs => refs.all fun r => !scc.contains r) = true ↔
      ∃ a ∈ scc, ∃ p, Part decls a (Payload p) ∧ ∀ r ∈ scc, ¬ Mentions r p := by
    rw [List.any_eq_true]
    simp only [infoOf_payloads]
  unfold validate
  simp only [hs, Option.bind_eq_bind, Option.bind_some]
  by_cases h1 : sccs.any (isRecursiveGroup (unguardedGraph decls scc)) = true
  · rw [if_pos h1]
    refine ⟨_, rfl, ⟨fun _ => hrec.mp h1, fun _ => rfl⟩, ?_⟩
    constructor
    · intro h; cases h
    · rintro ⟨h, _⟩; exact absurd (hrec.mp h1) h
  · rw [if_neg h1]
    have hno := fun h => h1 (hrec.mpr h)
    cases h2 : (scc.any fun i =>
        (infoOf decls i).payloads.any fun refs => refs.all fun r => !scc.contains r) with
    | false =>
      refine ⟨_, rfl, ⟨fun h => (by cases h), fun h => absurd h hno⟩, ⟨fun h => (by cases h), ?_⟩⟩
      rintro ⟨_, h⟩
      rw [hterm.mpr h] at h2
      cases h2
    | true =>
      exact ⟨_, rfl, ⟨fun h => (by cases h), fun h => absurd h hno⟩, ⟨fun _ => ⟨hno, hterm.mp h2⟩, fun _ => rfl⟩⟩

/-- **C53** (violated) Being accepted does not mean that the declared types have values: in
`enum A { Nil, C(B) }  enum B { D(A, B) }` the type `B` has no finite value, but the group is accepted. -/
theorem C53_accepted_without_values_violated :
    ∃ (decls : List (List PTy)) (scc : List Nat), scc.Nodup ∧ validate decls scc = some (.ok ()) ∧
      ∃ i ∈ scc, ¬ Inhabited decls (.path (some i) []) := by
  let A : PTy := .variant [.leaf, .product [.path (some 1) []]]
  let B : PTy := .variant [.product [.path (some 0) [], .path (some 1) []]]
  refine ⟨[[A], [B]], [0, 1], by decide, ?_, 1, by simp, ?_⟩
  · obtain ⟨r, hr, _, hok⟩ := C53_check_exact [[A], [B]] [0, 1] (by decide)
    have : r = .ok () := by
      refine hok.mpr ⟨?_, 0, by simp, .leaf, ⟨[A], A, rfl, by simp, .here (by simp)⟩, ?_⟩
      · rintro ⟨a, ha⟩
        obtain ⟨v, ⟨_, _, l, t, hl, ht, hd⟩, _⟩ := Relation.TransGen.head'_iff.mp ha
        have hvar : ∃ ps, t = .variant ps := by
          match a, hl with
          | 0, hl =>
            simp only [List.getElem?_cons_zero, Option.some.injEq] at hl
            subst hl
            rw [List.mem_singleton] at ht
            exact ⟨_, ht⟩
          | 1, hl =>
            simp only [List.getElem?_cons_succ, List.getElem?_cons_zero, Option.some.injEq] at hl
            subst hl
            rw [List.mem_singleton] at ht
            exact ⟨_, ht⟩
          | (n + 2), hl => simp at hl
        obtain ⟨ps, rfl⟩ := hvar
        cases hd
      · intro r _ hm
        cases hm
    rw [hr, this]
  · intro h
    generalize hd : ([[A], [B]] : List (List PTy)) = decls at h
    have key : ∀ t, Inhabited decls t →
        t ≠ B ∧ t ≠ .product [.path (some 0) [], .path (some 1) []] ∧ (∀ args, t ≠ .path (some 1) args) := by
      intro t ht
      induction ht with
      | leaf => refine ⟨?_, ?_, ?_⟩ <;> simp [B]
      | foreign => refine ⟨?_, ?_, ?_⟩ <;> simp [B]
      | array => refine ⟨?_, ?_, ?_⟩ <;> simp [B]
      | function => refine ⟨?_, ?_, ?_⟩ <;> simp [B]
      | variant hp _ ih =>
        refine ⟨?_, by simp, by simp⟩
        intro he
        simp only [B, PTy.variant.injEq] at he
        subst he
        rw [List.mem_singleton] at hp
        exact ih.2.1 hp
      | product _ ih =>
        refine ⟨by simp [B], ?_, by simp⟩
        intro he
        cases he
        exact (ih (.path (some 1) []) (by simp)).2.2 [] rfl
      | decl hl _ ih =>
        refine ⟨by simp [B], by simp, ?_⟩
        intro args he
        cases he
        subst hd
        simp only [List.getElem?_cons_succ, List.getElem?_cons_zero, Option.some.injEq] at hl
        exact ih.1 (List.cons.inj hl).1.symm
    exact (key _ h).2.2 [] rfl

/-- **C53** (violated) A group can even be accepted when none of its types has a value:
`struct S { v: N | C(S), w: O(S) }` is accepted because the variant `N` mentions nothing, but a value of `S`
needs another one in its field `w`. -/
theorem C53_accepted_group_without_any_value_violated :
    ∃ (decls : List (List PTy)) (scc : List Nat), scc ≠ [] ∧ scc.Nodup ∧ validate decls scc = some (.ok ()) ∧
      ∀ i ∈ scc, ¬ Inhabited decls (.path (some i) []) := by
  let W : PTy := .variant [.path (some 0) []]
  let S : PTy := .product [.variant [.leaf, .path (some 0) []], W]
  refine ⟨[[S]], [0], by decide, by decide, ?_, ?_⟩
  · obtain ⟨r, hr, _, hok⟩ := C53_check_exact [[S]] [0] (by decide)
    have : r = .ok () := by
      refine hok.mpr ⟨?_, 0, by simp, .leaf, ⟨[S], S, rfl, by simp, .field (List.mem_cons_self) (.here (by simp))⟩, ?_⟩
      · rintro ⟨a, ha⟩
        obtain ⟨v, ⟨hmem, _, l, t, hl, ht, hd⟩, _⟩ := Relation.TransGen.head'_iff.mp ha
        rw [List.mem_singleton] at hmem
        subst hmem
        simp only [List.getElem?_cons_zero, Option.some.injEq] at hl
        subst hl
        rw [List.mem_singleton] at ht
        subst ht
        change Direct v (.product [.variant [.leaf, .path (some 0) []], .variant [.path (some 0) []]]) at hd
        cases hd with
        | field hf hd =>
          simp only [List.mem_cons, List.not_mem_nil, or_false] at hf
          rcases hf with rfl | rfl <;> cases hd
      · intro r _ hm
        cases hm
    rw [hr, this]
  · intro i hi h
    rw [List.mem_singleton] at hi
    subst hi
    generalize hd : ([[S]] : List (List PTy)) = decls at h
    have key : ∀ t, Inhabited decls t → t ≠ S ∧ t ≠ W ∧ (∀ args, t ≠ .path (some 0) args) := by
      intro t ht
      induction ht with
      | leaf => refine ⟨?_, ?_, ?_⟩ <;> simp [S, W]
      | foreign => refine ⟨?_, ?_, ?_⟩ <;> simp [S, W]
      | array => refine ⟨?_, ?_, ?_⟩ <;> simp [S, W]
      | function => refine ⟨?_, ?_, ?_⟩ <;> simp [S, W]
      | variant hp _ ih =>
        refine ⟨by simp [S], ?_, by simp⟩
        intro he
        simp only [W, PTy.variant.injEq] at he
        subst he
        rw [List.mem_singleton] at hp
        exact ih.2.2 [] hp
      | product _ ih =>
        refine ⟨?_, by simp [W], by simp⟩
        intro he
        simp only [S, PTy.product.injEq] at he
        subst he
        exact (ih W (by simp)).2.1 rfl
      | decl hl _ ih =>
        refine ⟨by simp [S], by simp [W], ?_⟩
        intro args he
        cases he
        subst hd
        simp only [List.getElem?_cons_zero, Option.some.injEq] at hl
        exact ih.1 (List.cons.inj hl).1.symm
    exact (key _ h).2.2 [] rfl

/-- **C53** For a single recursive sum type, acceptance does give a value, provided the types it mentions
outside of itself have values. -/
theorem C53_accepted_sum_has_value_partial (decls : List (List PTy)) (i : Nat) (ps args : List PTy)
    (hd : decls[i]? = some [.variant ps]) (hok : validate decls [i] = some (.ok ()))
    (hothers : ∀ p ∈ ps, ¬ Mentions i p → Inhabited decls p) : Inhabited decls (.path (some i) args) := by
  obtain ⟨r, hr, _, h⟩ := C53_check_exact decls [i] (by simp)
  rw [hok] at hr
  cases hr
  obtain ⟨_, a, ha, p, ⟨l, t, hl, ht, hp⟩, hm⟩ := h.mp rfl
  rw [List.mem_singleton] at ha
  subst ha
  rw [hd] at hl
  cases hl
  rw [List.mem_singleton] at ht
  subst ht
  cases hp with
  | here hp => exact .decl hd (.variant hp (hothers p hp (hm _ (by simp))))

/-- **C53** A group rejected as a product cycle that mentions itself only through the fields of products
really has a type without values. -/
theorem C53_product_cycle_has_no_value (decls : List (List PTy)) (l : List PTy) (i : Nat) (fs args : List PTy)
    (hd : decls[i]? = some (.product fs :: l)) (hf : ∃ a, .path (some i) a ∈ fs) :
    ¬ Inhabited decls (.path (some i) args) := by
  intro h
  have key : ∀ t, Inhabited decls t → t ≠ .product fs ∧ ∀ args, t ≠ .path (some i) args := by
    intro t ht
    induction ht with
    | leaf => simp
    | foreign => simp
    | array => simp
    | function => simp
    | variant => simp
    | product _ ih =>
      refine ⟨?_, by simp⟩
      intro he
      cases he
      obtain ⟨a, ha⟩ := hf
      exact (ih _ ha).2 a rfl
    | decl hl _ ih =>
      refine ⟨by simp, ?_⟩
      intro args he
      cases he
      rw [hd] at hl
      simp only [Option.some.injEq, List.cons.injEq] at hl
      exact ih.1 hl.1.symm
  exact (key _ h).2 args rfl

/-- `enum List { Nil, Cons((int, List)) }` is accepted, `struct S { next: S }` is not. -/
example : (∃ a ∈ [0], ∃ p, Part [[.variant [.leaf, .product [.leaf, .path (some 0) []]]]] a (Payload p) ∧
      ∀ r ∈ [0], ¬ Mentions r p) ∧
    Relation.TransGen (Needs [[.product [.path (some 0) []]]] [0]) 0 0 := by
  refine ⟨⟨0, List.mem_singleton.mpr rfl, .leaf,
    ⟨_, _, rfl, List.mem_singleton.mpr rfl, .here (List.mem_cons_self)⟩, fun r _ h => nomatch h⟩, .single ?_⟩
  exact ⟨by simp, by simp, _, _, rfl, List.mem_singleton.mpr rfl, .field (f := .path (some 0) []) (by simp) .here⟩

end Ferlium.TypeCycle
