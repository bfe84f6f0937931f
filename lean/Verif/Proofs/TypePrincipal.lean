import Verif.Proofs.TypeRules

/-!
The types inferred for a group are the most general ones.
-/
namespace Ferlium.TypeInfer

open Unify (Ty Args Head Table)

variable {c : Ctx} {K : Uses} {θ : Nat → Ty}

theorem bodies_complete (hc : c.strict = true) {m : Nat} (hs : ∀ (f : Nat) (s : Sig), c.sigs[f]? = some s → SigOk m s) :
    ∀ {l : List (Sig × Fn)} {n : Nat} {θ : Nat → Ty}, m ≤ n → (∀ q ∈ l, Header m q.1 q.2) → KOk c K m θ →
    (∀ q ∈ l, ∃ o, Rule K (q.1.ret.subst θ) (bindParams q.2.params (paramTys (q.1.args.map (·.subst θ))) []) q.2.body o ∧ Fits o (q.1.ret.subst θ)) →
    ∃ r θ', bodies c n l = some r ∧ Ext n θ θ' ∧ Sat θ' r.2.2
  | [], n, θ, _, _, _, _ => ⟨([], n, []), θ, rfl, .refl, fun q hq => by cases hq⟩
  | (s, f) :: rest, n, θ, hm, hl, hK, hr => by
    have hh := hl (s, f) (by simp)
    obtain ⟨v, hv, hvm⟩ := hh.ret
    have hret : OkTy m s.ret := by rw [hv]; exact .var hvm
    have hp : Pre c s.ret (enter f.params (fixed s.args) []) n := ⟨hc, fun k s' h => (hs k s' h).mono hm, hret.mono hm,
      enter_ok (Γ := []) (fun t ht => (hh.args t ht).mono hm) (by simp)⟩
    obtain ⟨o, h1, h2⟩ := hr (s, f) (by simp)
    have h1' : Rule K (s.ret.subst θ) (sub θ (enter f.params (fixed s.args) [])) f.body o := by
      have h2 := bindParams_sub (σ := θ) f.params s.args []
      rw [show sub θ [] = [] from rfl] at h2
      rw [enter_eq, show fixed s.args = paramTys s.args from rfl, ← h2]
      exact h1
    obtain ⟨out, θ₁, k1, k2, k3, k4⟩ := infer_complete f.body (exp := some s.ret) hp hm hK
      (fun t ht => by cases ht; exact ⟨hret.mono hm, h2⟩) h1'
    have g := infer_good f.body hp (fun t ht => by cases ht; exact hret.mono hm) k1
    have k2' := k2.mono hm
    obtain ⟨r, θ₂, l1, l2, l3⟩ := bodies_complete hc hs (le_trans hm g.le) (fun q hq => hl q (by simp [hq])) (hK.ext k2') (l := rest) (by
      intro q hq
      have hq' := hl q (by simp [hq])
      obtain ⟨w, hw, hwm⟩ := hq'.ret
      rw [k2'.tys hq'.args, k2'.ty (t := q.1.ret) (by rw [hw]; exact .var hwm)]
      exact hr q (by simp [hq]))
    exact ⟨(decide (out.ty = .never) :: r.1, r.2.1, out.eqs ++ r.2.2), θ₂, by simp [bodies, k1, l1], k2.trans (l2.mono g.le), (l2.sat g.eqs k3).append l3⟩

theorem bodies_rules (hc : c.strict = true) {m : Nat} (hs : ∀ (f : Nat) (s : Sig), c.sigs[f]? = some s → SigOk m s) (hK : KAll c K θ) :
    ∀ {l : List (Sig × Fn)} {n : Nat} {r : List Bool × Nat × List (Ty × Ty)}, m ≤ n → (∀ q ∈ l, Header m q.1 q.2) → bodies c n l = some r →
    Sat θ r.2.2 → ∀ q ∈ l, ∃ o, Rule K (q.1.ret.subst θ) (bindParams q.2.params (paramTys (q.1.args.map (·.subst θ))) []) q.2.body o ∧
      Fits o (q.1.ret.subst θ)
  | [], n, r, _, _, _, _ => by simp
  | (s, f) :: rest, n, r, hm, hl, h, hsat => by
    simp only [bodies, Option.bind_eq_bind, Option.bind_eq_some_iff] at h
    obtain ⟨o, ho, q, hq, h⟩ := h
    cases h
    have hh := hl (s, f) (by simp)
    obtain ⟨v, hv, hvm⟩ := hh.ret
    have hret : OkTy n s.ret := by rw [hv]; exact .var (by omega)
    have hp : Pre c s.ret (enter f.params (fixed s.args) []) n := ⟨hc, fun k s' h => (hs k s' h).mono hm, hret,
      enter_ok (Γ := []) (fun t ht => (hh.args t ht).mono hm) (by simp)⟩
    have g := infer_good f.body hp (fun t ht => by cases ht; exact hret) ho
    have hb := infer_rules hK f.body hp (fun t ht => by cases ht; exact hret) ho hsat.left
    intro p hpm
    rcases List.mem_cons.1 hpm with rfl | hpm
    · refine ⟨_, ?_, kind_fits (infer_checked ho hsat.left)⟩
      have h2 := bindParams_sub (σ := θ) f.params s.args []
      rw [show sub θ [] = [] from rfl] at h2
      rw [enter_eq] at hb
      rw [h2]
      exact hb
    · exact bodies_rules hc hs hK (le_trans hm g.le) (fun q hq => hl q (by simp [hq])) hq hsat.right p hpm

theorem solve_sat (pick : Nat → Nat → Bool) {n : Nat} {ρ : Nat → Ty} : ∀ (eqs : List (Ty × Ty)) (tab : Table) (θ : Nat → Ty), Unify.Tri tab θ →
    Unify.SortedTable sorts tab → tab.length = n → (∀ q ∈ eqs, EqOk n q) → Sat ρ eqs → Unify.Respects tab ρ →
    ∃ tab', Unify.solve pick tab eqs = some (.ok tab') ∧ Unify.Respects tab' ρ
  | [], tab, θ, _, _, _, _, _, hr => ⟨tab, rfl, hr⟩
  | (c, e) :: rest, tab, θ, ht, hs, hn, he, hsat, hr => by
    obtain ⟨h1, h2⟩ := he (c, e) (by simp)
    dsimp only at h1 h2
    have hc1 : Unify.InTable tab c := by
      intro v hv
      rcases h1 with h1 | h1
      · rw [h1] at hv; simp [Unify.Ty.contains] at hv
      · rw [hn]; exact h1.below v hv
    have hc2 : c.Sorted sorts := by
      rcases h1 with h1 | h1
      · rw [h1]; simp [Unify.Ty.Sorted]
      · exact h1.sorted
    obtain ⟨r, hu, hp⟩ := Unify.unify_spec sorts_tidy.named pick _ _ tab θ c e rfl rfl ht hs hc1 (fun v hv => by rw [hn]; exact h2.below v hv) hc2 h2.sorted
    have hrest : ∀ q ∈ rest, EqOk n q := fun q hq => he q (by simp [hq])
    have hsrest : Sat ρ rest := fun q hq => hsat q (by simp [hq])
    rw [Unify.solve, hu]
    by_cases hnv : c = .never
    · subst hnv
      have := unify_never pick hu
      subst this
      exact solve_sat pick rest tab θ ht hs hn hrest hsrest hr
    · have hg := (hsat (c, e) (by simp)).resolve_left hnv
      cases r with
      | error err => exact absurd hg (hp ρ hr)
      | ok tab' =>
        obtain ⟨p1, ⟨θ', p2⟩, p3, p4, p5, p6⟩ := hp
        exact solve_sat pick rest tab' θ' p2 p3 (p1.trans hn) hrest hsrest (p6 ρ hr hg)

theorem solved_complete (pick : Nat → Nat → Bool) {n : Nat} {ρ : Nat → Ty} {eqs : List (Ty × Ty)} (he : ∀ q ∈ eqs, EqOk n q) (hs : Sat ρ eqs) :
    ∃ tab, solved pick n eqs = some tab ∧ Unify.Respects tab ρ := by
  obtain ⟨tab, h1, h2⟩ := solve_sat pick eqs (Unify.fresh n) Ty.var (Unify.tri_fresh n) (Unify.sorted_fresh n) (by simp [Unify.fresh]) he hs
    (fun v t ht => by
      unfold Unify.fresh at ht
      have := List.mem_of_getElem? ht
      simp at this)
  exact ⟨tab, by unfold solved; rw [h1], h2⟩

theorem finish_complete {tab : Table} (h : Unify.Tri tab θ) {base : Nat} : ∀ {bs : List Bool} {l : List (Sig × Fn)},
    (∀ q ∈ l, Header tab.length q.1 q.2) → ∃ new, finish tab base (bs.zip l) = some new
  | [], l, _ => ⟨[], by simp [finish]⟩
  | b :: bs, [], _ => ⟨[], by simp [finish]⟩
  | b :: bs, (s, f) :: l, hh => by
    have h0 := hh (s, f) (by simp)
    obtain ⟨v, hv, hvm⟩ := h0.ret
    obtain ⟨new, hn⟩ := finish_complete (bs := bs) h (fun q hq => hh q (by simp [hq])) (l := l) (base := base)
    refine ⟨generalise (s.args.map (·.subst θ)) (defaulted (b || refersTo base f.body) (s.args.map (·.subst θ)) (s.ret.subst θ)) :: new, ?_⟩
    simp only [List.zip_cons_cons, finish]
    rw [mapM_normalize h h0.args, h.normalize (t := s.ret) (fun w hw => by rw [hv] at hw; simp [Unify.Ty.contains] at hw; omega), hn]
    rfl

/-- The types of the headers under an assignment. -/
def types (θ : Nat → Ty) (hs : List Sig) : List (List Ty × Ty) := hs.map fun s => (s.args.map (·.subst θ), s.ret.subst θ)

/-- The values of the variables of the headers. -/
def values (tys : List (List Ty × Ty)) : List Ty := tys.flatMap fun t => t.1 ++ [t.2]

theorem headers_types : ∀ (group : List Fn) (tys : List (List Ty × Ty)) (pre : List Ty) (n : Nat), pre.length = n →
    List.Forall₂ (fun (f : Fn) (t : List Ty × Ty) => f.params.length = t.1.length) group tys →
    types (fun v => ((pre ++ values tys)[v]?).getD .never) (headers n group).1 = tys
  | [], _, pre, n, _, .nil => rfl
  | f :: group, t :: tys, pre, n, hn, .cons hl hr => by
    have ih := headers_types group tys (pre ++ t.1 ++ [t.2]) (n + f.params.length + 1) (by simp; omega) hr
    have hv : pre ++ t.1 ++ [t.2] ++ values tys = pre ++ values (t :: tys) := by simp [values]
    rw [hv] at ih
    simp only [headers, types, List.map_cons]
    rw [show List.map _ (headers (n + f.params.length + 1) group).1 = tys from ih]
    congr 1
    obtain ⟨ts, r⟩ := t
    dsimp only at hl
    congr 1
    · apply List.ext_getElem?
      intro i
      by_cases hi : i < ts.length
      · rw [List.getElem?_map, List.getElem?_eq_getElem (by simp [vars]; omega), List.getElem?_eq_getElem hi]
        simp only [vars, List.getElem_map, List.getElem_range, Option.map_some, Unify.Ty.subst]
        rw [List.getElem?_append_right (by omega), hn]
        simp only [values, List.flatMap_cons]
        rw [List.append_assoc, List.getElem?_append_left (by omega), Nat.add_sub_cancel_left, List.getElem?_eq_getElem hi]
        rfl
      · rw [List.getElem?_eq_none (by simp [vars]; omega), List.getElem?_eq_none (by omega)]
    · rw [Unify.Ty.subst, List.getElem?_append_right (by omega), hn]
      simp only [values, List.flatMap_cons]
      rw [List.append_assoc, List.getElem?_append_right (by omega), show n + f.params.length - n - ts.length = 0 by omega]
      rfl

/-- What inference knows of the functions before a group. -/
def Ready (sigs : List Sig) : Prop := ∀ s ∈ sigs, SigOk 0 s ∧ s.Usable

/-- The headers of a group. -/
structure Heads (sigs hs : List Sig) (m : Nat) (group : List Fn) : Prop where
  each : List.Forall₂ (Header m) hs group
  zip : ∀ q ∈ hs.zip group, Header m q.1 q.2
  get : ∀ s ∈ hs, ∃ f, Header m s f
  ok : ∀ (f : Nat) (s : Sig), (sigs ++ hs)[f]? = some s → SigOk m s

theorem heads {sigs : List Sig} (h : Ready sigs) (group : List Fn) : Heads sigs (headers 0 group).1 (headers 0 group).2 group := by
  obtain ⟨-, hfor⟩ := headers_ok group 0
  have hhs : ∀ s ∈ (headers 0 group).1, ∃ f, Header (headers 0 group).2 s f := by
    intro s hsm
    obtain ⟨i, hi⟩ := List.getElem?_of_mem hsm
    obtain ⟨f, _, hf⟩ := forall₂_get hfor hi
    exact ⟨f, hf⟩
  refine ⟨hfor, fun q hq => List.forall₂_zip hfor hq, hhs, ?_⟩
  intro f s hf
  rcases List.mem_append.1 (List.mem_of_getElem? hf) with hs | hs
  · exact (h s hs).1.mono (Nat.zero_le _)
  · obtain ⟨fn, hd⟩ := hhs s hs
    obtain ⟨v, hv, hvm⟩ := hd.ret
    intro t ht
    rcases ht with ht | rfl
    · exact ⟨(hd.args t ht).sorted, fun v hv => .inr ((hd.args t ht).below v hv)⟩
    · rw [hv]
      exact ⟨(OkTy.var hvm).sorted, fun v hv => .inr ((OkTy.var hvm).below v hv)⟩

theorem groupUses_kok {sigs hs : List Sig} {m : Nat} {group : List Fn} (h : Ready sigs) (hh : Heads sigs hs m group) (θ : Nat → Ty) :
    KOk ⟨true, sigs ++ hs⟩ (groupUses sigs (types θ hs)) m θ := by
  intro f args o hf
  rcases hf with ⟨s, hs', σ, rfl, ho⟩ | ⟨hle, t, ht, rfl, rfl⟩
  · obtain ⟨h1, h2⟩ := h s (List.mem_of_getElem? hs')
    have hcongr : ∀ t, t ∈ s.args ∨ t = s.ret → t.subst (fun v => if v ∈ s.vars then σ v else θ v) = t.subst σ := by
      intro t ht
      refine Unify.Ty.subst_congr t fun v hv => ?_
      rcases (h1 t ht).2 v hv with hv | hv
      · rw [if_pos hv]
      · omega
    refine ⟨s, ?_, h2, h1.mono (Nat.zero_le _), fun v => if v ∈ s.vars then σ v else θ v, fun v hv _ => if_neg hv, ?_, ?_⟩
    · exact (List.getElem?_append_left (List.getElem?_eq_some_iff.1 hs').1).trans hs'
    · exact List.map_congr_left fun t ht => (hcongr t (.inl ht)).symm
    · rw [hcongr s.ret (.inr rfl)]
      exact ho
  · simp only [types, List.getElem?_map, Option.map_eq_some_iff] at ht
    obtain ⟨s, hs', rfl⟩ := ht
    have hs'' : (sigs ++ hs)[f]? = some s := by rw [List.getElem?_append_right hle]; exact hs'
    obtain ⟨fn, hd⟩ := hh.get s (List.mem_of_getElem? hs')
    obtain ⟨v, hv, _⟩ := hd.ret
    refine ⟨s, hs'', ⟨fun t ht => (mentionsNever_iff _).2 (hd.args t ht).real, .inr (by rw [hv]; rfl)⟩, hh.ok f s hs'', θ, fun _ _ _ => rfl, rfl,
      .inr ⟨by rw [hv]; simp, rfl⟩⟩

theorem groupUses_kall {sigs hs : List Sig} {m : Nat} {group : List Fn} (hh : Heads sigs hs m group) (θ : Nat → Ty) :
    KAll ⟨true, sigs ++ hs⟩ (groupUses sigs (types θ hs)) θ := by
  intro f s hf σ hσ
  dsimp only at hf
  by_cases hlt : f < sigs.length
  · rw [List.getElem?_append_left hlt] at hf
    left
    refine ⟨s, hf, σ, rfl, ?_⟩
    by_cases hn : s.ret = .never
    · exact .inl ⟨hn, kind_never hn⟩
    · exact .inr ⟨hn, kind_real hn⟩
  · rw [List.getElem?_append_right (by omega)] at hf
    obtain ⟨fn, hd⟩ := hh.get s (List.mem_of_getElem? hf)
    obtain ⟨v, hv, _⟩ := hd.ret
    have : σ = θ := funext fun v => hσ v (by rw [hd.vars]; simp)
    subst this
    right
    refine ⟨by omega, (s.args.map (·.subst σ), s.ret.subst σ), ?_, rfl, kind_real (by rw [hv]; simp)⟩
    simp only [types, List.getElem?_map, hf, Option.map_some]

/-- The rules for a group as a statement on the headers. -/
theorem groupRule_iff {sigs hs : List Sig} {m : Nat} {group : List Fn} (hh : Heads sigs hs m group) (θ : Nat → Ty) :
    GroupRule sigs group (types θ hs) ↔ ∀ q ∈ hs.zip group, ∃ o,
      Rule (groupUses sigs (types θ hs)) (q.1.ret.subst θ) (bindParams q.2.params (paramTys (q.1.args.map (·.subst θ))) []) q.2.body o ∧
      Fits o (q.1.ret.subst θ) := by
  generalize hK : groupUses sigs (types θ hs) = K
  unfold GroupRule
  rw [hK]
  clear hK
  have := hh.each
  clear hh
  induction this with
  | nil => simp [types]
  | @cons s f hs group hd _ ih =>
    simp only [types, List.map_cons, List.forall₂_cons, List.zip_cons_cons, List.mem_cons, forall_eq_or_imp] at ih ⊢
    refine Iff.trans (and_congr Iff.rfl ih) ?_
    constructor
    · rintro ⟨⟨_, h⟩, h'⟩; exact ⟨h, h'⟩
    · rintro ⟨h, h'⟩; exact ⟨⟨by rw [List.length_map]; exact hd.length, h⟩, h'⟩

theorem GroupRule.lengths {sigs : List Sig} {group : List Fn} {tys : List (List Ty × Ty)} (h : GroupRule sigs group tys) :
    List.Forall₂ (fun (f : Fn) (t : List Ty × Ty) => f.params.length = t.1.length) group tys := by
  unfold GroupRule at h
  exact h.imp fun _ _ h => h.1

/-- A group with types is accepted, and the types are cases of those found. -/
theorem group_complete {sigs : List Sig} (h : Ready sigs) {group : List Fn} {tys : List (List Ty × Ty)} (hg : GroupRule sigs group tys)
    (pick : Nat → Nat → Bool) : ∃ b tab ρ, bodies ⟨true, sigs ++ (headers 0 group).1⟩ (headers 0 group).2 ((headers 0 group).1.zip group) = some b ∧
      solved pick b.2.1 b.2.2 = some tab ∧ Unify.Respects tab ρ ∧ types ρ (headers 0 group).1 = tys := by
  have hh := heads h group
  have ht := headers_types group tys [] 0 rfl hg.lengths
  generalize (fun v : Nat => (([] ++ values tys)[v]?).getD Ty.never) = θ at ht
  generalize (headers 0 group).1 = hs, (headers 0 group).2 = m at hh ht ⊢
  subst ht
  obtain ⟨b, θ', h1, h2, h3⟩ := bodies_complete (c := ⟨true, sigs ++ hs⟩) rfl hh.ok le_rfl hh.zip (groupUses_kok h hh θ) ((groupRule_iff hh θ).1 hg)
  obtain ⟨k1, k2, k3, -⟩ := bodies_ok (c := ⟨true, sigs ++ hs⟩) rfl le_rfl hh.ok hh.zip h1
  obtain ⟨tab, l1, l2⟩ := solved_complete pick k3 h3
  refine ⟨b, tab, θ', h1, l1, l2, ?_⟩
  unfold types
  refine List.map_congr_left fun s hs => ?_
  obtain ⟨f, hd⟩ := hh.get s hs
  obtain ⟨v, hv, hvm⟩ := hd.ret
  rw [h2.tys hd.args, h2.ty (t := s.ret) (by rw [hv]; exact .var hvm)]

/-- The assignments which meet the equations give the group types. -/
theorem group_rules {sigs : List Sig} (h : Ready sigs) {group : List Fn} {b : List Bool × Nat × List (Ty × Ty)}
    (hb : bodies ⟨true, sigs ++ (headers 0 group).1⟩ (headers 0 group).2 ((headers 0 group).1.zip group) = some b) (hs : Sat θ b.2.2) :
    GroupRule sigs group (types θ (headers 0 group).1) := by
  have hh := heads h group
  exact (groupRule_iff hh θ).2 (bodies_rules (c := ⟨true, _⟩) rfl hh.ok (groupUses_kall hh θ) le_rfl hh.zip hb hs)

theorem Sat.comp {eqs : List (Ty × Ty)} (h : Sat θ eqs) (σ : Nat → Ty) : Sat (fun v => (θ v).subst σ) eqs := by
  intro q hq
  refine (h q hq).imp id fun h => ?_
  rw [← Unify.Ty.subst_subst, ← Unify.Ty.subst_subst, h]

theorem types_comp (σ : Nat → Ty) (hs : List Sig) : types (fun v => (θ v).subst σ) hs = instances σ (types θ hs) := by
  unfold types instances
  rw [List.map_map]
  refine List.map_congr_left fun s _ => ?_
  simp only [Function.comp, List.map_map, Prod.mk.injEq]
  refine ⟨List.map_congr_left fun t _ => (Unify.Ty.subst_subst t).symm, (Unify.Ty.subst_subst _).symm⟩

theorem types_agree {tab : Table} {ρ : Nat → Ty} (ht : Unify.Tri tab θ) (hr : Unify.Respects tab ρ) (hs : List Sig) :
    types ρ hs = instances ρ (types θ hs) := by
  rw [← types_comp]
  unfold types
  refine List.map_congr_left fun s _ => ?_
  simp only [Prod.mk.injEq]
  refine ⟨List.map_congr_left fun t _ => ?_, ?_⟩
  · rw [← Unify.Ty.subst_subst, ht.agree hr]
  · rw [← Unify.Ty.subst_subst, ht.agree hr]

/-- What inference finds for a group. -/
theorem group_found {sigs : List Sig} (h : Ready sigs) {group : List Fn} {pick : Nat → Nat → Bool} {sigs' : List Sig}
    (hg : inferGroup pick true sigs group = some sigs') : ∃ new θ b n, sigs' = sigs ++ new ∧
      bodies ⟨true, sigs ++ (headers 0 group).1⟩ (headers 0 group).2 ((headers 0 group).1.zip group) = some b ∧ Sat θ b.2.2 ∧
      (∃ tab, solved pick b.2.1 b.2.2 = some tab ∧ Solution n b.2.2 tab θ) ∧ List.Forall₂ (Final θ) (headers 0 group).1 new := by
  simp only [inferGroup, Option.bind_eq_bind, Option.bind_eq_some_iff] at hg
  obtain ⟨b, hb, tab, ht, new, hn, hg⟩ := hg
  cases hg
  have hh := heads h group
  obtain ⟨k1, k2, k3, -⟩ := bodies_ok (c := ⟨true, _⟩) rfl le_rfl hh.ok hh.zip hb
  obtain ⟨θ, sol⟩ := solved_ok ht k3
  have hfin := finish_ok sol.tri k2 (fun q hq => (hh.zip q hq).mono (by rw [sol.length]; exact k1)) hn
  refine ⟨new, θ, b, _, rfl, hb, sol.sat, ⟨tab, ht, sol⟩, ?_⟩
  have hlen := hh.each.length_eq
  have : (headers 0 group).1 = ((headers 0 group).1.zip group).map Prod.fst := (List.map_fst_zip hlen.le).symm
  rw [this, List.forall₂_map_left_iff]
  exact hfin

theorem Ready.group {sigs : List Sig} (h : Ready sigs) {group : List Fn} {pick : Nat → Nat → Bool} {sigs' : List Sig}
    (hg : inferGroup pick true sigs group = some sigs') : Ready sigs' := by
  obtain ⟨new, θ, b, n, rfl, hb, hsat, ⟨tab, ht, sol⟩, hfin⟩ := group_found h hg
  have hh := heads h group
  intro s hs
  rcases List.mem_append.1 hs with hs | hs
  · exact h s hs
  · obtain ⟨i, hi⟩ := List.getElem?_of_mem hs
    obtain ⟨q, hq, b', rfl⟩ := forall₂_get hfin.flip hi
    obtain ⟨fn, hd⟩ := hh.get q (List.mem_of_getElem? hq)
    obtain ⟨v, hv, _⟩ := hd.ret
    have hrn : (q.ret.subst θ).NoNever := by rw [hv, Unify.Ty.subst]; exact sol.real v
    have hrs : (q.ret.subst θ).Sorted sorts := by rw [hv, Unify.Ty.subst]; exact sol.sorted v
    have hne : q.ret.subst θ ≠ .never := by
      intro hc
      rw [hc, Unify.Ty.NoNever] at hrn
      exact hrn
    have hd' := defaulted_cases (b := b') (args := q.args.map (·.subst θ)) hne
    constructor
    · refine generalise_ok ?_ ?_
      · intro t ht
        obtain ⟨t', ht', rfl⟩ := List.mem_map.1 ht
        exact Unify.Ty.sorted_subst _ (hd.args t' ht').sorted fun v _ => sol.sorted v
      · rcases hd' with h | ⟨v, _, _, h⟩
        · rw [h]; exact hrs
        · rw [h]; simp [Unify.Ty.Sorted]
    · constructor
      · intro t ht
        obtain ⟨t', ht', rfl⟩ := List.mem_map.1 ht
        exact (mentionsNever_iff _).2 (noNever_subst _ (hd.args t' ht').real fun v _ => sol.real v)
      · rcases hd' with h | ⟨v, _, _, h⟩
        · right; simp only [generalise]; rw [h]; exact (mentionsNever_iff _).2 hrn
        · left; exact h

theorem Ready.groups {pick : Nat → Nat → Bool} : ∀ {groups : List (List Fn)} {sigs sigs' : List Sig}, Ready sigs →
    inferGroups pick true sigs groups = some sigs' → Ready sigs'
  | [], sigs, sigs', h, hg => by
    simp only [inferGroups, Option.some.injEq] at hg
    subst hg
    exact h
  | g :: rest, sigs, sigs', h, hg => by
    simp only [inferGroups, Option.bind_eq_bind, Option.bind_eq_some_iff] at hg
    obtain ⟨s1, h1, h2⟩ := hg
    exact Ready.groups (h.group h1) h2

end Ferlium.TypeInfer
