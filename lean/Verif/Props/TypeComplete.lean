import Verif.Proofs.TypePrincipal
import Verif.Props.TypeInfer

/-!
C75: inference finds the most general types.
-/
namespace Ferlium.TypeInfer

open Unify (Ty Args Head Table)

theorem ready {natives sigs : List Sig} (hn : ∀ s ∈ natives, s.Closed ∧ s.Usable) {pick : Nat → Nat → Bool} {done : List (List Fn)}
    (hd : inferGroups pick true natives done = some sigs) : Ready sigs :=
  Ready.groups (fun s hs => ⟨(hn s hs).1.ok, (hn s hs).2⟩) hd

theorem found_principal {sigs : List Sig} (h : Ready sigs) {group : List Fn} {pick : Nat → Nat → Bool} {sigs' : List Sig}
    (hg : inferGroup pick true sigs group = some sigs') : ∃ new tys, sigs' = sigs ++ new ∧ Principal sigs group tys ∧ List.Forall₂ Scheme tys new := by
  obtain ⟨new, θ, b, n, rfl, hb, hsat, ⟨tab, ht, sol⟩, hfin⟩ := group_found h hg
  have hh := heads h group
  refine ⟨new, types θ (headers 0 group).1, rfl, ?_, ?_⟩
  · intro tys
    constructor
    · intro hr
      obtain ⟨b', tab', ρ, k1, k2, k3, k4⟩ := group_complete h hr pick
      rw [hb] at k1
      cases k1
      rw [ht] at k2
      cases k2
      exact ⟨ρ, by rw [← k4]; exact types_agree sol.tri k3 _⟩
    · rintro ⟨σ, rfl⟩
      rw [← types_comp]
      exact group_rules h hb (hsat.comp σ)
  · unfold types
    rw [List.forall₂_map_left_iff]
    have hall : ∀ s ∈ (headers 0 group).1, s.ret.subst θ ≠ .never := by
      intro s hs hc
      obtain ⟨fn, hd⟩ := hh.get s hs
      obtain ⟨v, hv, _⟩ := hd.ret
      rw [hv, Unify.Ty.subst] at hc
      have := sol.real v
      rw [hc, Unify.Ty.NoNever] at this
      exact this
    clear hb ht hh hg
    generalize (headers 0 group).1 = hs at hfin hall
    induction hfin with
    | nil => exact .nil
    | @cons s s' hs new hf _ ih =>
      refine .cons ?_ (ih fun s hs => hall s (by simp [hs]))
      obtain ⟨b', rfl⟩ := hf
      refine ⟨rfl, ?_, ?_⟩
      · intro a ha v hv
        simp only [generalise, List.mem_dedup, List.mem_append, List.mem_flatten, List.mem_map] at ha ⊢
        rcases ha with ha | rfl
        · exact .inl ⟨_, ⟨a, ha, rfl⟩, mem_varsOf v a hv⟩
        · exact .inr (mem_varsOf v _ hv)
      · rcases defaulted_cases (b := b') (args := s.args.map (·.subst θ)) (hall s (by simp)) with h | ⟨v, h1, h2, h3⟩
        · exact .inl h
        · exact .inr ⟨h3, v, h1, fun a ha => h2 a (by simpa using ha)⟩

/-- **C75** (partial: the core language, and inference which also refuses functions which do not return as values and closures
with more parameters than expected).  A group of functions, after any other groups of a module, is accepted if and only if
there are types for its functions which follow the typing rules; in which direction variables are unified does not matter. -/
theorem C75_accepts_exactly_typable_groups_partial {natives sigs : List Sig} (hn : ∀ s ∈ natives, s.Closed ∧ s.Usable)
    {pick pick' : Nat → Nat → Bool} {done : List (List Fn)} (hd : inferGroups pick true natives done = some sigs) (group : List Fn) :
    (∃ sigs', inferGroup pick' true sigs group = some sigs') ↔ ∃ tys, GroupRule sigs group tys := by
  have h := ready hn hd
  constructor
  · rintro ⟨sigs', hg⟩
    obtain ⟨new, tys, -, hp, -⟩ := found_principal h hg
    exact ⟨_, (hp _).2 ⟨.var, rfl⟩⟩
  · rintro ⟨tys, hr⟩
    obtain ⟨b, tab, ρ, k1, k2, -, -⟩ := group_complete h hr pick'
    have hh := heads h group
    obtain ⟨l1, l2, l3, -⟩ := bodies_ok (c := ⟨true, _⟩) rfl le_rfl hh.ok hh.zip k1
    obtain ⟨θ, sol⟩ := solved_ok k2 l3
    obtain ⟨new, hnew⟩ := finish_complete sol.tri (bs := b.1) (base := sigs.length) (l := (headers 0 group).1.zip group)
      (fun q hq => (hh.zip q hq).mono (by rw [sol.length]; exact l1))
    exact ⟨sigs ++ new, by simp [inferGroup, k1, k2, hnew]⟩

/-- What has types is accepted by the compiler as it is, without the additional refusals, with the same type schemes. -/
theorem C75_typable_groups_are_accepted_partial {natives sigs : List Sig} (hn : ∀ s ∈ natives, s.Closed ∧ s.Usable)
    {pick pick' : Nat → Nat → Bool} {done : List (List Fn)} (hd : inferGroups pick true natives done = some sigs) {group : List Fn}
    {tys : List (List Ty × Ty)} (hr : GroupRule sigs group tys) :
    ∃ new, inferGroup pick' false sigs group = some (sigs ++ new) ∧ inferGroup pick' true sigs group = some (sigs ++ new) := by
  obtain ⟨sigs', hg⟩ := (C75_accepts_exactly_typable_groups_partial hn (pick' := pick') hd group).2 ⟨tys, hr⟩
  obtain ⟨new, -, rfl, -⟩ := found_principal (ready hn hd) hg
  refine ⟨new, ?_, hg⟩
  have := inferGroups_lax (pick := pick') (groups := [group]) (sigs := sigs) (r := sigs ++ new) (by simp [inferGroups, hg])
  simpa [inferGroups] using this

/-- **C75** (partial as above).  The type schemes found for a group are the most general ones: the functions of the group have
exactly those types which come from them by choosing types for the variables. -/
theorem C75_inferred_types_are_most_general_partial {natives sigs : List Sig} (hn : ∀ s ∈ natives, s.Closed ∧ s.Usable)
    {pick pick' : Nat → Nat → Bool} {done : List (List Fn)} (hd : inferGroups pick true natives done = some sigs) {group : List Fn}
    {sigs' : List Sig} (hg : inferGroup pick' true sigs group = some sigs') :
    ∃ new tys, sigs' = sigs ++ new ∧ Principal sigs group tys ∧ List.Forall₂ Scheme tys new :=
  found_principal (ready hn hd) hg

/-- In particular every use of a function of the group which the rules allow is a use at its inferred type scheme. -/
theorem C75_no_use_is_lost_partial {natives sigs : List Sig} (hn : ∀ s ∈ natives, s.Closed ∧ s.Usable)
    {pick pick' : Nat → Nat → Bool} {done : List (List Fn)} (hd : inferGroups pick true natives done = some sigs) {group : List Fn}
    {sigs' : List Sig} (hg : inferGroup pick' true sigs group = some sigs') {tys : List (List Ty × Ty)} (hr : GroupRule sigs group tys)
    {i : Nat} {t : List Ty × Ty} (ht : tys[i]? = some t) : Inst sigs' (sigs.length + i) t.1 t.2 := by
  obtain ⟨new, tys₀, rfl, hp, hs⟩ := found_principal (ready hn hd) hg
  obtain ⟨σ, rfl⟩ := (hp tys).1 hr
  simp only [instances, List.getElem?_map, Option.map_eq_some_iff] at ht
  obtain ⟨t₀, ht₀, rfl⟩ := ht
  obtain ⟨s, hs', h1, h2, h3⟩ := forall₂_get hs ht₀
  refine ⟨s, ?_, σ, by rw [h1], ?_⟩
  · rw [List.getElem?_append_right (by omega), Nat.add_sub_cancel_left]; exact hs'
  · rcases h3 with h3 | ⟨h3, _⟩
    · right; rw [h3]
    · left; exact h3

/-! ## Groups with and without types -/

theorem natives_usable : ∀ s ∈ natives, s.Closed ∧ s.Usable := by
  intro s hs
  refine ⟨natives_closed s hs, ?_⟩
  simp only [natives, List.mem_cons, List.not_mem_nil, or_false] at hs
  rcases hs with rfl | rfl | rfl <;> exact ⟨by decide, by decide⟩

/-- The functions `twice`, `stop` and `main`: `twice` in all its types. -/
example : Principal natives groups[0] [([fnTy [.var 2] (.var 2), .var 2], .var 2)] := by
  have hg : inferGroup (fun _ _ => true) true natives groups[0] = some (natives ++ [⟨[2], [fnTy [.var 2] (.var 2), .var 2], .var 2⟩]) := by
    have : inferGroups (fun _ _ => true) true natives [groups[0]] = some (natives ++ [⟨[2], [fnTy [.var 2] (.var 2), .var 2], .var 2⟩]) :=
      inferGroupsIn_eq (k := 20) (by decide +kernel)
    simpa [inferGroups] using this
  obtain ⟨new, tys, h1, h2, h3⟩ := C75_inferred_types_are_most_general_partial natives_usable (pick := fun _ _ => true) (done := []) rfl hg
  have h1 := List.append_cancel_left h1
  subst h1
  cases h3 with
  | cons h h' =>
    cases h'
    obtain ⟨k1, -, k3⟩ := h
    rcases k3 with k3 | ⟨k3, _⟩
    · dsimp only at k1 k3
      rw [k1, k3]
      exact h2
    · cases k3

/-- `fn id(x) { x }` has the type `(int) -> int`, among others. -/
theorem id_typed (τ : Ty) : GroupRule natives [⟨[0], .local 0⟩] [([τ], τ)] :=
  .cons ⟨rfl, some τ, .local (m := false) rfl, fun σ h => by cases h; rfl⟩ .nil

example : ∃ new, inferGroup (fun _ _ => true) false natives [⟨[0], .local 0⟩] = some (natives ++ new) ∧
    inferGroup (fun _ _ => true) true natives [⟨[0], .local 0⟩] = some (natives ++ new) :=
  C75_typable_groups_are_accepted_partial natives_usable (pick := fun _ _ => true) (done := []) rfl (id_typed (native 1))

example {sigs' : List Sig} (h : inferGroup (fun _ _ => true) true natives [⟨[0], .local 0⟩] = some sigs') : Inst sigs' 3 [native 1] (native 1) :=
  C75_no_use_is_lost_partial natives_usable (pick := fun _ _ => true) (done := []) rfl h (id_typed (native 1)) (i := 0) rfl

/-- `fn self(x) { x(x) }` has no type, so it is refused. -/
example (pick : Nat → Nat → Bool) : ¬ ∃ sigs', inferGroup pick true natives [⟨[0], .app (.local 0) (.cons (.local 0) .nil)⟩] = some sigs' := by
  rw [C75_accepts_exactly_typable_groups_partial natives_usable (pick := fun _ _ => true) (done := []) rfl]
  rintro ⟨tys, h⟩
  unfold GroupRule at h
  cases h with
  | @cons _ t _ _ h _ =>
    obtain ⟨hl, o, hr, -⟩ := h
    obtain ⟨ts, r⟩ := t
    match ts, hl with
    | [τ], _ =>
      have inv : ∀ {K σ}, Rule K r (bindParams [0] (paramTys [τ]) []) (.local 0) σ → σ = some τ := by
        intro K σ h
        cases h with
        | «local» h => cases h; rfl
      cases hr with
      | app h1 h2 =>
        have := inv h1
        cases h2 with
        | cons h3 h4 =>
          cases h4
          have h3 := inv h3
          cases h3
          have h5 := congrArg (fun t : Ty => t.size) (Option.some.inj this)
          simp only [fnTy, parts, List.cons_append, List.nil_append, Unify.Ty.size, Unify.Args.size] at h5
          omega
      | appCallee h => have := inv h; cases this
      | appArgs h1 h2 =>
        cases h2 with
        | cons h3 h4 => cases h4
        | stop h => have := inv h; cases this

end Ferlium.TypeInfer
