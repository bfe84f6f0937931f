import Verif.Proofs.TypeInfer
import Verif.Props.Coherence

/-!
Inference of groups of functions and of modules follows the typing rules.
-/
namespace Ferlium.TypeInfer

open Unify (Ty Args Head Table)

theorem unify_never (pick : Nat → Nat → Bool) {tab : Table} {e : Ty} {r : Unify.Result} (h : Unify.unify pick tab .never e = some r) :
    r = .ok tab := by
  rw [Unify.unify] at h
  split at h
  · cases h; rfl
  · simp only [Option.bind_eq_bind, Option.bind_eq_some_iff] at h
    obtain ⟨c', h1, e', _, h⟩ := h
    rw [Unify.normalize] at h1
    cases h1
    split at h
    · cases h; rfl
    · cases h; rfl

theorem solve_real (pick : Nat → Nat → Bool) {n : Nat} : ∀ (eqs : List (Ty × Ty)) (tab tab' : Table),
    Unify.solve pick tab eqs = some (.ok tab') → Coherence.NoNeverTable tab → (∀ q ∈ eqs, EqOk n q) → Coherence.NoNeverTable tab'
  | [], tab, tab', h, ht, _ => by cases h; exact ht
  | (c, e) :: rest, tab, tab', h, ht, he => by
    rw [Unify.solve] at h
    cases hu : Unify.unify pick tab c e with
    | none => rw [hu] at h; cases h
    | some r =>
      rw [hu] at h
      cases r with
      | error => cases h
      | ok tab₁ =>
        refine solve_real pick rest tab₁ tab' h ?_ fun x hx => he x (by simp [hx])
        obtain ⟨h1, h2⟩ := he (c, e) (by simp)
        rcases h1 with h1 | h1
        · dsimp only at h1
          subst h1
          have := unify_never pick hu
          cases this
          exact ht
        · exact (Coherence.unify_noNever pick).1 _ _ _ _ hu _ rfl ht h1.real h2.real

/-- What a solution of the equations is. -/
structure Solution (n : Nat) (eqs : List (Ty × Ty)) (tab : Table) (θ : Nat → Ty) : Prop where
  tri : Unify.Tri tab θ
  length : tab.length = n
  sorted : ∀ v, (θ v).Sorted sorts
  real : ∀ v, (θ v).NoNever
  sat : Sat θ eqs

theorem solved_ok {pick : Nat → Nat → Bool} {n : Nat} {eqs : List (Ty × Ty)} {tab : Table} (h : solved pick n eqs = some tab)
    (he : ∀ q ∈ eqs, EqOk n q) : ∃ θ, Solution n eqs tab θ := by
  have hlen : (Unify.fresh n).length = n := by simp [Unify.fresh]
  unfold solved at h
  split at h
  · next tab' hs =>
    cases h
    obtain ⟨r, hr, hp⟩ := Unify.solve_spec (pick := pick) sorts_tidy.named eqs (Unify.fresh n) Ty.var (Unify.tri_fresh n)
      (Unify.sorted_fresh n) (fun q hq => by
        obtain ⟨h1, h2⟩ := he q hq
        refine ⟨?_, ?_, ?_, h2.sorted⟩
        · intro v hv
          rw [hlen]
          rcases h1 with h1 | h1
          · rw [h1] at hv; simp [Unify.Ty.contains] at hv
          · exact h1.below v hv
        · intro v hv
          rw [hlen]
          exact h2.below v hv
        · rcases h1 with h1 | h1
          · rw [h1]; simp [Unify.Ty.Sorted]
          · exact h1.sorted)
    rw [hs] at hr
    cases hr
    obtain ⟨p1, ⟨θ, p2⟩, p3, p4, p5, p6⟩ := hp
    have hnn := solve_real pick eqs _ _ hs (Coherence.noNever_fresh n) he
    have hr := fun v => Coherence.tri_noNever p2 hnn v
    refine ⟨θ, p2, p1.trans hlen, fun v => p2.sorted p3 v, hr, ?_⟩
    intro q hq
    obtain ⟨h1, h2⟩ := he q hq
    rcases h1 with h1 | h1
    · exact .inl h1
    · right
      exact (Unify.sameShape sorts_tidy ((p5 θ p2.respects).2 q hq) (Unify.Ty.sorted_subst _ h1.sorted fun v _ => p2.sorted p3 v)
        (Unify.Ty.sorted_subst _ h2.sorted fun v _ => p2.sorted p3 v)).eq (noNever_subst _ h1.real fun v _ => hr v)
        (noNever_subst _ h2.real fun v _ => hr v)
  · cases h

/-- The type of a function before inference. -/
structure Header (m : Nat) (s : Sig) (f : Fn) : Prop where
  vars : s.vars = []
  args : ∀ t ∈ s.args, OkTy m t
  ret : ∃ v, s.ret = .var v ∧ v < m
  length : f.params.length = s.args.length

theorem Header.mono {m m' : Nat} {s : Sig} {f : Fn} (h : Header m s f) (hm : m ≤ m') : Header m' s f :=
  ⟨h.vars, fun t ht => (h.args t ht).mono hm, by obtain ⟨v, h1, h2⟩ := h.ret; exact ⟨v, h1, by omega⟩, h.length⟩

theorem headers_ok : ∀ (fns : List Fn) (n : Nat), n ≤ (headers n fns).2 ∧ List.Forall₂ (Header (headers n fns).2) (headers n fns).1 fns
  | [], n => ⟨le_rfl, .nil⟩
  | f :: rest, n => by
    obtain ⟨h1, h2⟩ := headers_ok rest (n + f.params.length + 1)
    simp only [headers]
    refine ⟨by omega, .cons ⟨rfl, fun t ht => (vars_ok t ht).mono (by omega), ⟨_, rfl, by omega⟩, by simp [vars]⟩ h2⟩

variable {c : Ctx} {θ : Nat → Ty}

theorem bodies_ok (hc : c.strict = true) {m : Nat} : ∀ {l : List (Sig × Fn)} {n : Nat} {r : List Bool × Nat × List (Ty × Ty)}, m ≤ n →
    (∀ (f : Nat) (s : Sig), c.sigs[f]? = some s → SigOk m s) → (∀ q ∈ l, Header m q.1 q.2) → bodies c n l = some r →
    n ≤ r.2.1 ∧ r.1.length = l.length ∧ (∀ q ∈ r.2.2, EqOk r.2.1 q) ∧ ∀ θ I, Sat θ r.2.2 → IOk c I θ → ∀ q ∈ l,
      HasTy I (q.1.ret.subst θ) (bindParams q.2.params (paramTys (q.1.args.map (·.subst θ))) []) q.2.body (q.1.ret.subst θ)
  | [], n, r, hm, hs, hl, h => by
    simp only [bodies, Option.some.injEq] at h
    subst h
    simp
  | (s, f) :: rest, n, r, hm, hs, hl, h => by
    simp only [bodies, Option.bind_eq_bind, Option.bind_eq_some_iff] at h
    obtain ⟨o, ho, q, hq, h⟩ := h
    cases h
    have hh := hl (s, f) (by simp)
    obtain ⟨v, hv, hvm⟩ := hh.ret
    have hret : OkTy n s.ret := by rw [hv]; exact .var (by omega)
    have g := infer_good f.body ⟨hc, fun k s' h => (hs k s' h).mono hm, hret,
      enter_ok (Γ := []) (fun t ht => (hh.args t ht).mono hm) (by simp)⟩ (fun t ht => by cases ht; exact hret) ho
    obtain ⟨k1, k2, k3, k4⟩ := bodies_ok hc (le_trans hm g.le) hs (fun q hq => hl q (by simp [hq])) hq
    refine ⟨le_trans g.le k1, by simp [k2], ?_, ?_⟩
    · intro e he
      rcases List.mem_append.1 he with he | he
      · exact (g.eqs e he).mono k1
      · exact k3 e he
    · intro θ I hsat hI q hq
      rcases List.mem_cons.1 hq with rfl | hq
      · have := g.typed θ I hsat.left hI _ (infer_checked ho hsat.left)
        rw [enter_eq] at this
        have h2 := bindParams_sub (σ := θ) f.params s.args []
        rw [show sub θ [] = [] from rfl] at h2
        rw [h2]
        exact this
      · exact k4 θ I hsat.right hI q hq

theorem mapM_normalize {tab : Table} (h : Unify.Tri tab θ) : ∀ {l : List Ty}, (∀ t ∈ l, OkTy tab.length t) →
    l.mapM (Unify.normalize tab) = some (l.map (·.subst θ))
  | [], _ => rfl
  | t :: l, ht => by
    rw [List.mapM_cons, h.normalize (fun v hv => (ht t (by simp)).below v hv), mapM_normalize h fun t' ht' => ht t' (by simp [ht'])]
    rfl

/-- The type of a function after inference. -/
def Final (θ : Nat → Ty) (s s' : Sig) : Prop :=
  ∃ b, s' = generalise (s.args.map (·.subst θ)) (defaulted b (s.args.map (·.subst θ)) (s.ret.subst θ))

theorem finish_ok {tab : Table} (h : Unify.Tri tab θ) {base : Nat} : ∀ {bs : List Bool} {l : List (Sig × Fn)} {new : List Sig},
    bs.length = l.length → (∀ q ∈ l, Header tab.length q.1 q.2) → finish tab base (bs.zip l) = some new →
    List.Forall₂ (fun q s' => Final θ q.1 s') l new
  | [], [], new, _, _, hf => by
    simp only [List.zip_nil_left, finish, Option.some.injEq] at hf
    subst hf
    exact .nil
  | [], _ :: _, _, hl, _, _ => by simp at hl
  | _ :: _, [], _, hl, _, _ => by simp at hl
  | b :: bs, (s, f) :: l, new, hl, hh, hf => by
    have h0 := hh (s, f) (by simp)
    obtain ⟨v, hv, hvm⟩ := h0.ret
    simp only [List.zip_cons_cons, finish] at hf
    rw [mapM_normalize h h0.args, h.normalize (t := s.ret) (fun w hw => by rw [hv] at hw; simp [Unify.Ty.contains] at hw; omega)] at hf
    simp only [Option.bind_eq_bind, Option.bind_some, Option.bind_eq_some_iff] at hf
    obtain ⟨rest, hr, hf⟩ := hf
    cases hf
    exact .cons ⟨_, rfl⟩ (finish_ok h (by simpa using hl) (fun q hq => hh q (by simp [hq])) hr)

theorem defaulted_cases {b : Bool} {args : List Ty} {ret : Ty} (hr : ret ≠ .never) :
    (defaulted b args ret = ret) ∨ ∃ v, ret = .var v ∧ (∀ t ∈ args, t.contains v = false) ∧ defaulted b args ret = .never := by
  cases ret with
  | never => exact absurd rfl hr
  | node => exact .inl rfl
  | var v =>
    simp only [defaulted]
    split
    · next h =>
      simp only [Bool.and_eq_true, Bool.not_eq_true', List.any_eq_false] at h
      exact .inr ⟨v, rfl, fun t ht => by simpa using h.2 t ht, rfl⟩
    · exact .inl rfl

mutual

theorem mem_varsOf (v : Nat) : ∀ t : Ty, t.contains v = true → v ∈ varsOf t
  | .never, h => by simp [Unify.Ty.contains] at h
  | .var w, h => by simpa [Unify.Ty.contains, varsOf] using h
  | .node _ args, h => by rw [varsOf]; exact mem_varsOfParts v args (by simpa [Unify.Ty.contains] using h)

theorem mem_varsOfParts (v : Nat) : ∀ a : Args, a.contains v = true → v ∈ varsOfParts a
  | .nil, h => by simp [Unify.Args.contains] at h
  | .cons _ t rest, h => by
    rw [Unify.Args.contains, Bool.or_eq_true] at h
    rw [varsOfParts, List.mem_append]
    exact h.imp (mem_varsOf v t) (mem_varsOfParts v rest)

end

theorem generalise_ok {args : List Ty} {ret : Ty} (ha : ∀ t ∈ args, t.Sorted sorts) (hr : ret.Sorted sorts) : SigOk 0 (generalise args ret) := by
  intro t ht
  refine ⟨?_, fun v hv => .inl ?_⟩
  · rcases ht with ht | rfl
    · exact ha t ht
    · exact hr
  · simp only [generalise, List.mem_dedup, List.mem_append, List.mem_flatten, List.mem_map]
    rcases ht with ht | rfl
    · exact .inl ⟨_, ⟨t, ht, rfl⟩, mem_varsOf v t hv⟩
    · exact .inr (mem_varsOf v _ hv)

/-- The functions have the types that inference found. -/
structure Typed (natives : List Sig) (fns : List Fn) (sigs : List Sig) : Prop where
  length : sigs.length = natives.length + fns.length
  same : ∀ f, f < natives.length → sigs[f]? = natives[f]?
  closed : ∀ (f : Nat) (s : Sig), sigs[f]? = some s → SigOk 0 s
  typed : ∀ (i : Nat) (fn : Fn), fns[i]? = some fn → ∀ args r, Inst sigs (natives.length + i) args r →
    fn.params.length = args.length ∧ HasTy (Inst sigs) r (bindParams fn.params (paramTys args) []) fn.body r

theorem Inst.subst {sigs : List Sig} {σ : Nat → Ty} {f : Nat} {args : List Ty} {r : Ty} (h : Inst sigs f args r) :
    Inst sigs f (args.map (·.subst σ)) (r.subst σ) := by
  obtain ⟨s, hs, τ, rfl, hr⟩ := h
  refine ⟨s, hs, fun v => (τ v).subst σ, ?_, hr.imp id ?_⟩
  · rw [List.map_map]
    exact List.map_congr_left fun t _ => Unify.Ty.subst_subst t
  · rintro rfl
    exact Unify.Ty.subst_subst _

theorem Inst.append {sigs new : List Sig} {f : Nat} {args : List Ty} {r : Ty} (h : Inst sigs f args r) : Inst (sigs ++ new) f args r := by
  obtain ⟨s, hs, h⟩ := h
  exact ⟨s, by rw [List.getElem?_append_left (List.getElem?_eq_some_iff.1 hs).1]; exact hs, h⟩

theorem Inst.old {sigs new : List Sig} {f : Nat} {args : List Ty} {r : Ty} (h : Inst (sigs ++ new) f args r) (hf : f < sigs.length) :
    Inst sigs f args r := by
  obtain ⟨s, hs, h⟩ := h
  exact ⟨s, by rw [List.getElem?_append_left hf] at hs; exact hs, h⟩

/-- The types of the functions while a group is inferred. -/
def Mono (sigs hs : List Sig) (θ : Nat → Ty) : Insts := fun f args r =>
  Inst sigs f args r ∨ sigs.length ≤ f ∧ ∃ s : Sig, hs[f - sigs.length]? = some s ∧ args = s.args.map (·.subst θ) ∧ r = s.ret.subst θ

theorem mono_iok {sigs hs : List Sig} {strict : Bool} (hh : ∀ s ∈ hs, s.vars = [] ∧ s.ret ≠ .never) : IOk ⟨strict, sigs ++ hs⟩ (Mono sigs hs θ) θ := by
  intro f s hs' σ hσ r hr
  by_cases hf : f < sigs.length
  · left
    dsimp only at hs'
    rw [List.getElem?_append_left hf] at hs'
    exact ⟨s, hs', σ, rfl, hr⟩
  · right
    dsimp only at hs'
    rw [List.getElem?_append_right (by omega)] at hs'
    obtain ⟨h1, h2⟩ := hh s (List.mem_of_getElem? hs')
    have : σ = θ := funext fun v => hσ v (by rw [h1]; simp)
    subst this
    exact ⟨by omega, s, hs', rfl, hr.resolve_left h2⟩

theorem forall₂_get {R : α → β → Prop} : ∀ {l : List α} {l' : List β}, List.Forall₂ R l l' → ∀ {i : Nat} {a : α}, l[i]? = some a →
    ∃ b, l'[i]? = some b ∧ R a b
  | _, _, .nil, i, a, h => by simp at h
  | _, _, .cons hab h, 0, a, h' => by cases h'; exact ⟨_, rfl, hab⟩
  | _, _, .cons hab h, i + 1, a, h' => forall₂_get h (by simpa using h')

theorem Typed.group {natives : List Sig} {fns : List Fn} {sigs : List Sig} (h : Typed natives fns sigs) {pick : Nat → Nat → Bool}
    {group : List Fn} {sigs' : List Sig} (hg : inferGroup pick true sigs group = some sigs') : Typed natives (fns ++ group) sigs' := by
  simp only [inferGroup, Option.bind_eq_bind, Option.bind_eq_some_iff] at hg
  obtain ⟨b, hb, tab, ht, new, hn, hg⟩ := hg
  cases hg
  obtain ⟨-, hfor⟩ := headers_ok group 0
  generalize hH : headers 0 group = H at hb hn hfor
  obtain ⟨hs, m⟩ := H
  dsimp only at hb hn hfor
  have hlen : hs.length = group.length := hfor.length_eq
  have hzip : ∀ q ∈ hs.zip group, Header m q.1 q.2 := fun q hq => List.forall₂_zip hfor hq
  have hhs : ∀ s ∈ hs, ∃ f, Header m s f := by
    intro s hsm
    obtain ⟨i, hi⟩ := List.getElem?_of_mem hsm
    obtain ⟨f, _, hf⟩ := forall₂_get hfor hi
    exact ⟨f, hf⟩
  have hsig : ∀ (f : Nat) (s : Sig), (sigs ++ hs)[f]? = some s → SigOk m s := by
    intro f s hf
    by_cases hlt : f < sigs.length
    · rw [List.getElem?_append_left hlt] at hf
      exact (h.closed f s hf).mono (Nat.zero_le _)
    · rw [List.getElem?_append_right (by omega)] at hf
      obtain ⟨fn, hd⟩ := hhs s (List.mem_of_getElem? hf)
      obtain ⟨v, hv, hvm⟩ := hd.ret
      intro t ht
      rcases ht with ht | rfl
      · exact ⟨(hd.args t ht).sorted, fun v hv => .inr ((hd.args t ht).below v hv)⟩
      · rw [hv]
        exact ⟨(OkTy.var hvm).sorted, fun v hv => .inr ((OkTy.var hvm).below v hv)⟩
  obtain ⟨k1, k2, k3, k4⟩ := bodies_ok (c := ⟨true, sigs ++ hs⟩) rfl le_rfl hsig hzip hb
  obtain ⟨θ, sol⟩ := solved_ok ht k3
  have hfin := finish_ok sol.tri k2 (fun q hq => (hzip q hq).mono (by rw [sol.length]; exact k1)) hn
  have hnewlen : new.length = group.length := by
    rw [← hfin.length_eq, List.length_zip, hlen, Nat.min_self]
  -- the final type of each function of the group
  have hnew : ∀ (i : Nat) (s : Sig), hs[i]? = some s → ∃ s' fn, new[i]? = some s' ∧ group[i]? = some fn ∧ Header m s fn ∧ Final θ s s' ∧ (s, fn) ∈ hs.zip group := by
    intro i s hi
    obtain ⟨fn, hfn, hd⟩ := forall₂_get hfor hi
    have hz : (hs.zip group)[i]? = some (s, fn) := by rw [List.getElem?_zip_eq_some]; exact ⟨hi, hfn⟩
    obtain ⟨s', hs', hf⟩ := forall₂_get hfin hz
    exact ⟨s', fn, hs', hfn, hd, hf, List.mem_of_getElem? hz⟩
  have hreal : ∀ s ∈ hs, s.ret.subst θ ≠ .never := by
    intro s hsm hc
    obtain ⟨fn, hd⟩ := hhs s hsm
    obtain ⟨v, hv, _⟩ := hd.ret
    rw [hv, Unify.Ty.subst] at hc
    have := sol.real v
    rw [hc, Unify.Ty.NoNever] at this
    exact this
  have hbody := k4 θ (Mono sigs hs θ) sol.sat (mono_iok fun s hsm => by
    obtain ⟨fn, hd⟩ := hhs s hsm
    obtain ⟨v, hv, _⟩ := hd.ret
    exact ⟨hd.vars, by rw [hv]; simp⟩)
  -- the types while the group was inferred are cases of the final ones
  have hI : ∀ σ : Nat → Ty, ∀ f args r, Mono sigs hs θ f args r → Inst (sigs ++ new) f (args.map (·.subst σ)) (r.subst σ) := by
    intro σ f args r hf
    rcases hf with hf | ⟨hf, s, hsf, rfl, rfl⟩
    · exact hf.subst.append
    · obtain ⟨s', fn, h1, -, -, ⟨b', hb'⟩, -⟩ := hnew _ s hsf
      refine ⟨s', by rw [List.getElem?_append_right hf]; exact h1, σ, ?_, ?_⟩
      · rw [hb']; rfl
      · rw [hb']
        rcases defaulted_cases (b := b') (args := s.args.map (·.subst θ)) (hreal s (List.mem_of_getElem? hsf)) with h | ⟨v, _, _, h⟩
        · right; simp only [generalise]; rw [h]
        · left; exact h
  refine ⟨?_, ?_, ?_, ?_⟩
  · rw [List.length_append, List.length_append, h.length, hnewlen]; omega
  · intro f hf
    rw [List.getElem?_append_left (by rw [h.length]; omega)]
    exact h.same f hf
  · intro f s hf
    by_cases hlt : f < sigs.length
    · rw [List.getElem?_append_left hlt] at hf
      exact h.closed f s hf
    · rw [List.getElem?_append_right (by omega)] at hf
      obtain ⟨q, hq, b', hb'⟩ := forall₂_get hfin.flip hf
      have hq' := hzip q (List.mem_of_getElem? hq)
      rw [hb']
      refine generalise_ok ?_ ?_
      · intro t ht
        obtain ⟨t', ht', rfl⟩ := List.mem_map.1 ht
        exact Unify.Ty.sorted_subst _ (hq'.args t' ht').sorted fun v _ => sol.sorted v
      · obtain ⟨v, hv, _⟩ := hq'.ret
        have : (q.1.ret.subst θ).Sorted sorts := by rw [hv, Unify.Ty.subst]; exact sol.sorted v
        have hne : q.1.ret.subst θ ≠ .never := by
          rw [hv, Unify.Ty.subst]
          intro hc
          have := sol.real v
          rw [hc, Unify.Ty.NoNever] at this
          exact this
        rcases defaulted_cases (b := b') (args := q.1.args.map (·.subst θ)) hne with h | ⟨v, _, _, h⟩
        · rw [h]; exact this
        · rw [h]; simp [Unify.Ty.Sorted]
  · intro i fn hi args r hinst
    by_cases hlt : i < fns.length
    · rw [List.getElem?_append_left hlt] at hi
      obtain ⟨h1, h2⟩ := h.typed i fn hi args r (hinst.old (by rw [h.length]; omega))
      exact ⟨h1, h2.mono fun f args r hf => hf.append⟩
    · rw [List.getElem?_append_right (by omega)] at hi
      obtain ⟨s', hs', σ, rfl, hr⟩ := hinst
      have hidx : natives.length + i - sigs.length = i - fns.length := by rw [h.length]; omega
      rw [List.getElem?_append_right (by rw [h.length]; omega), hidx] at hs'
      have hil : i - fns.length < hs.length := by rw [hlen]; exact (List.getElem?_eq_some_iff.1 hi).1
      obtain ⟨s'', fn', h1, h2, hd, ⟨b', hb'⟩, hmem⟩ := hnew (i - fns.length) _ (List.getElem?_eq_getElem hil)
      rw [hs'] at h1
      cases h1
      rw [hi] at h2
      cases h2
      generalize hs[i - fns.length] = s at hd hb' hmem
      have hsm : s ∈ hs := (List.of_mem_zip hmem).1
      subst hb'
      refine ⟨?_, ?_⟩
      · simp only [generalise, List.length_map]; exact hd.length
      -- a substitution which gives the result type
      obtain ⟨σ', ha, hr'⟩ : ∃ σ' : Nat → Ty, (s.args.map (·.subst θ)).map (·.subst σ') = (s.args.map (·.subst θ)).map (·.subst σ) ∧
          (s.ret.subst θ).subst σ' = r := by
        rcases defaulted_cases (b := b') (args := s.args.map (·.subst θ)) (hreal s hsm) with h | ⟨v, h1, h2, h⟩
        · refine ⟨σ, rfl, ?_⟩
          simp only [generalise, h] at hr
          exact (hr.resolve_left (hreal s hsm)).symm
        · refine ⟨fun w => if w = v then r else σ w, ?_, ?_⟩
          · refine List.map_congr_left fun t ht => Unify.Ty.subst_congr t fun w hw => ?_
            have : w ≠ v := by
              rintro rfl
              rw [h2 t ht] at hw
              cases hw
            rw [if_neg this]
          · rw [h1, Unify.Ty.subst, if_pos rfl]
      have := (hbody (s, fn) hmem).subst (hI σ')
      dsimp only at this
      rw [hr', ← bindParams_sub, ha] at this
      exact this

theorem Typed.groups {natives : List Sig} {pick : Nat → Nat → Bool} : ∀ {groups : List (List Fn)} {fns : List Fn} {sigs sigs' : List Sig},
    Typed natives fns sigs → inferGroups pick true sigs groups = some sigs' → Typed natives (fns ++ groups.flatten) sigs'
  | [], fns, sigs, sigs', h, hg => by
    simp only [inferGroups, Option.some.injEq] at hg
    subst hg
    simpa using h
  | g :: rest, fns, sigs, sigs', h, hg => by
    simp only [inferGroups, Option.bind_eq_bind, Option.bind_eq_some_iff] at hg
    obtain ⟨s1, h1, h2⟩ := hg
    have := Typed.groups (h.group h1) h2
    simpa using this

theorem Typed.start {natives : List Sig} (h : ∀ (f : Nat) (s : Sig), natives[f]? = some s → SigOk 0 s) : Typed natives [] natives :=
  ⟨by simp, fun _ _ => rfl, h, fun i fn hi => by simp at hi⟩

theorem Typed.fnsOk {p : Program} {sigs : List Sig} (h : Typed p.natives p.groups.flatten sigs) (hn : NativesOk p sigs) : FnsOk (Inst sigs) p := by
  intro f args r hf
  constructor
  · intro hlt vs hvs
    obtain ⟨s, hs, σ, rfl, hr⟩ := hf
    rw [h.same f hlt] at hs
    rcases hn f s hs σ vs hvs with h1 | ⟨v, h1, h2, h3⟩
    · rw [h1]; trivial
    · rw [h1]
      rw [hr.resolve_left h2]
      exact h3
  · intro hge
    have hlt : f < sigs.length := by
      obtain ⟨s, hs, _⟩ := hf
      exact (List.getElem?_eq_some_iff.1 hs).1
    rw [h.length] at hlt
    have hi : f - p.natives.length < p.groups.flatten.length := by omega
    have hg := List.getElem?_eq_getElem hi
    refine ⟨p.groups.flatten[f - p.natives.length], ?_, ?_⟩
    · simp only [Program.script]
      rw [if_neg hge]
      exact hg
    · have he : p.natives.length + (f - p.natives.length) = f := by omega
      exact h.typed _ _ hg args r (by rw [he]; exact hf)

end Ferlium.TypeInfer
