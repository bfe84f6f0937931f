import Verif.Proofs.InternIso

/-! Storing one strongly connected component. -/

namespace Ferlium.Intern

/-- The state between two components. -/
structure State (eff : Nat → List (List Nat)) (U₀ : Universe) (kinds : List Kind) (U : Universe)
    (ρ : List (Option Ref)) : Prop where
  inv : Inv eff U
  ext : Ext U₀.look U.look
  len : ρ.length = kinds.length
  res : ∀ (j : Nat) (r : Ref), ρ[j]? = some (some r) →
    (∃ k, U.look r = some k) ∧ Same U.look (batch U₀ kinds) r (.loc j)

/-- A batch of sorted kinds. -/
structure Good (eff : Nat → List (List Nat)) (U : Universe) (kinds : List Kind) : Prop
    extends Batch eff U kinds where
  sorted : ∀ k ∈ kinds, k.Sorted

theorem Good.effOk {eff : Nat → List (List Nat)} {U : Universe} {kinds : List Kind} (h : Good eff U kinds)
    {k k' : Kind} (hk : k ∈ kinds) (hh : k'.head = k.head) (hl : k'.kids.length = k.kids.length) :
    EffOk eff k' :=
  ⟨fun d e hde => h.effects k hk d e (hh ▸ hde), (h.sorted k hk).of_head hh hl⟩

/-- A component. -/
structure Comp (U₀ : Universe) (kinds : List Kind) (ρ : List (Option Ref)) (c : List Nat) : Prop where
  nodup : c.Nodup
  lt : ∀ i ∈ c, i < kinds.length
  unresolved : ∀ i ∈ c, ρ[i]? = some none
  conn : ∀ i ∈ c, ∀ j ∈ c, i ≠ j → Reaches (batch U₀ kinds) (.loc i) (.loc j)
  clos : ∀ i ∈ c, ∀ j, Reaches (batch U₀ kinds) (.loc i) (.loc j) →
    Reaches (batch U₀ kinds) (.loc j) (.loc i) → j ∈ c
  kids : ∀ i ∈ c, ∀ k, kinds[i]? = some k → ∀ j, .loc j ∈ k.kids → j ∈ c ∨ ∃ r, ρ[j]? = some (some r)

/-- The batch with what is already stored. -/
def mid (U : Universe) (kinds : List Kind) (ρ : List (Option Ref)) : Look :=
  batch U (kinds.map (·.mapKids (resolve ρ)))

theorem ext_batch (U : Universe) (kinds : List Kind) : Ext U.look (batch U kinds) := by
  intro r k h
  cases r with
  | loc i => cases h
  | glob w i => exact h

theorem mid_loc {U : Universe} {kinds : List Kind} {ρ : List (Option Ref)} {i : Nat} (h : i < kinds.length) :
    mid U kinds ρ (.loc i) = some (member kinds ρ i) := by
  simp [mid, batch, member, List.getElem?_eq_getElem h]

variable {eff : Nat → List (List Nat)} {U₀ U U' : Universe} {kinds : List Kind} {ρ : List (Option Ref)}
  {c ids : List Nat}

theorem resolve_rel (h₀ : Inv eff U₀) (hb : Good eff U₀ kinds) (st : State eff U₀ kinds U ρ) {k : Kind}
    (hk : k ∈ kinds) {x : Ref} (hx : x ∈ k.kids) :
    (∃ i, i < kinds.length ∧ resolve ρ x = .loc i ∧ x = .loc i ∧ ∀ r, ρ[i]? ≠ some (some r)) ∨
    ((∃ k, U.look (resolve ρ x) = some k) ∧ Same U.look (batch U₀ kinds) (resolve ρ x) x ∧
      ∀ j, x = .loc j → ∃ r, ρ[j]? = some (some r)) := by
  obtain ⟨k', hk'⟩ := hb.exist k hk x hx
  cases x with
  | glob w i =>
    have hk0 : U₀.look (.glob w i) = some k' := hk'
    refine .inr ⟨⟨k', st.ext _ _ hk0⟩, ?_, nofun⟩
    exact (st.ext.same h₀.closed hk0).symm.trans ((ext_batch U₀ kinds).same h₀.closed hk0)
  | loc j =>
    have hj : j < kinds.length := (List.getElem?_eq_some_iff.1 hk').1
    match hr : ρ[j]? with
    | none => exact .inl ⟨j, hj, by simp [resolve, hr], rfl, by simp [hr]⟩
    | some none => exact .inl ⟨j, hj, by simp [resolve, hr], rfl, by simp [hr]⟩
    | some (some r) =>
      have : resolve ρ (.loc j) = r := by simp [resolve, hr]
      rw [this]
      obtain ⟨h1, h2⟩ := st.res j r hr
      exact .inr ⟨h1, h2, fun j' e => by cases e; exact ⟨r, hr⟩⟩

theorem same_mid (h₀ : Inv eff U₀) (hb : Good eff U₀ kinds) (st : State eff U₀ kinds U ρ) {i : Nat}
    (hi : i < kinds.length) : Same (mid U kinds ρ) (batch U₀ kinds) (.loc i) (.loc i) := by
  refine same_of_bisim (R := fun a b => (∃ i, i < kinds.length ∧ a = .loc i ∧ b = .loc i) ∨
    ((∃ k, U.look a = some k) ∧ Same U.look (batch U₀ kinds) a b)) ?_ (.inl ⟨i, hi, rfl, rfl⟩)
  rintro a b (⟨i, hi, rfl, rfl⟩ | ⟨⟨k, hk⟩, hs⟩)
  · refine ⟨_, kinds[i], mid_loc hi, List.getElem?_eq_getElem hi, ?_, ?_⟩
    · simp [member, Kind.mapKids, List.getElem?_eq_getElem hi]
    · simp only [member, Kind.mapKids, List.getElem?_eq_getElem hi, Option.getD_some]
      rw [List.forall₂_map_left_iff, List.forall₂_same]
      intro x hx
      rcases resolve_rel h₀ hb st (List.getElem_mem hi) hx with ⟨j, h1, h2, h3, _⟩ | ⟨h1, h2, _⟩
      · exact .inl ⟨j, h1, h2, h3⟩
      · exact .inr ⟨h1, h2⟩
  · obtain ⟨k', hk', hh, hf⟩ := hs.kids hk
    refine ⟨k, k', ext_batch _ _ _ _ hk, hk', hh, ?_⟩
    have hv := st.inv.closed _ _ hk
    clear hh hk hk' hs
    generalize k.kids = l at *
    generalize k'.kids = l' at *
    induction hf with
    | nil => exact .nil
    | cons hab _ ih =>
      exact .cons (.inr ⟨hv _ List.mem_cons_self, hab⟩) (ih fun s hs => hv s (List.mem_cons_of_mem _ hs))

/-- The inner types of a member of a component. -/
theorem member_kids (h₀ : Inv eff U₀) (hb : Good eff U₀ kinds) (st : State eff U₀ kinds U ρ)
    (hc : Comp U₀ kinds ρ c) {i : Nat} (hi : i ∈ c) {r : Ref} (hr : r ∈ (member kinds ρ i).kids) :
    (∃ j ∈ c, r = .loc j) ∨ ∃ k, U.look r = some k := by
  have hlt := hc.lt i hi
  simp only [member, Kind.mapKids, List.getElem?_eq_getElem hlt, Option.getD_some, List.mem_map] at hr
  obtain ⟨x, hx, rfl⟩ := hr
  rcases resolve_rel h₀ hb st (List.getElem_mem hlt) hx with ⟨j, _, h2, h3, h4⟩ | ⟨h1, _⟩
  · subst h3
    rcases hc.kids i hi _ (List.getElem?_eq_getElem hlt) j hx with h | ⟨r, h⟩
    · exact .inl ⟨j, h, h2⟩
    · exact absurd h (h4 r)
  · exact .inr h1

theorem glob_reach (h₀ : Inv eff U₀) {w a : Nat} {x : Ref} (h : Reaches (batch U₀ kinds) (.glob w a) x) :
    ∃ v b, x = .glob v b := by
  have use : ∀ w a x, Uses (batch U₀ kinds) (.glob w a) x → ∃ v b, x = .glob v b := by
    rintro w a x ⟨k, hk, hx⟩
    have hk0 : U₀.look (.glob w a) = some k := hk
    obtain ⟨k', hk'⟩ := h₀.closed _ _ hk0 _ hx
    cases x with
    | loc j => cases hk'
    | glob v b => exact ⟨v, b, rfl⟩
  induction h with
  | one hu => exact use _ _ _ hu
  | more _ hu ih => obtain ⟨v, b, rfl⟩ := ih; exact use _ _ _ hu

/-- Everything about a recursive component. -/
structure Rec (eff : Nat → List (List Nat)) (U₀ U : Universe) (kinds : List Kind) (ρ : List (Option Ref))
    (c : List Nat) : Prop where
  h₀ : Inv eff U₀
  hb : Good eff U₀ kinds
  st : State eff U₀ kinds U ρ
  hc : Comp U₀ kinds ρ c
  hcyc : ∀ i ∈ c, Reaches (batch U₀ kinds) (.loc i) (.loc i)

theorem Rec.conn (h : Rec eff U₀ U kinds ρ c) {i j : Nat} (hi : i ∈ c) (hj : j ∈ c) :
    Reaches (batch U₀ kinds) (.loc i) (.loc j) := by
  by_cases e : i = j
  · subst e; exact h.hcyc i hi
  · exact h.hc.conn i hi j hj e

theorem Rec.inj (h : Rec eff U₀ U kinds ρ c) {i j : Nat} (hi : i ∈ c) (hj : j ∈ c)
    (hs : Same (mid U kinds ρ) (mid U kinds ρ) (.loc i) (.loc j)) : i = j := by
  have h1 := same_mid h.h₀ h.hb h.st (h.hc.lt i hi)
  have h2 := same_mid h.h₀ h.hb h.st (h.hc.lt j hj)
  have := h.hb.single i (.loc j) (h.hcyc i hi) (h.conn hi hj) (h1.symm.trans (hs.trans h2))
  cases this; rfl

theorem Rec.leave (h : Rec eff U₀ U kinds ρ c) {i i₀ : Nat} (hi : i ∈ c) (hi₀ : i₀ ∈ c) {s r : Ref}
    (hs : s ∈ (member kinds ρ i).kids) {ks : Kind} (hks : U.look s = some ks)
    (hr : r = s ∨ Reaches U.look s r) (hsame : Same U.look (mid U kinds ρ) r (.loc i₀)) : False := by
  have hlt := h.hc.lt i hi
  simp only [member, Kind.mapKids, List.getElem?_eq_getElem hlt, Option.getD_some, List.mem_map] at hs
  obtain ⟨x, hx, rfl⟩ := hs
  have huse : Uses (batch U₀ kinds) (.loc i) x := ⟨_, List.getElem?_eq_getElem hlt, hx⟩
  rcases resolve_rel h.h₀ h.hb h.st (List.getElem_mem hlt) hx with ⟨j, _, h2, _⟩ | ⟨_, hsx, hres⟩
  · rw [h2] at hks; cases hks
  · obtain ⟨q, hq, hrq⟩ : ∃ q, (q = x ∨ Reaches (batch U₀ kinds) x q) ∧
        Same U.look (batch U₀ kinds) r q := by
      rcases hr with rfl | hr
      · exact ⟨x, .inl rfl, hsx⟩
      · obtain ⟨q, h1, h2⟩ := hsx.reaches hr
        exact ⟨q, .inr h1, h2⟩
    have hiq : Reaches (batch U₀ kinds) (.loc i₀) q := by
      have h1 := (h.conn hi₀ hi).more huse
      rcases hq with rfl | hq
      · exact h1
      · exact h1.trans hq
    have hs0 : Same (batch U₀ kinds) (batch U₀ kinds) (.loc i₀) q :=
      (same_mid h.h₀ h.hb h.st (h.hc.lt i₀ hi₀)).symm.trans (hsame.symm.trans hrq)
    have hq0 := h.hb.single i₀ q (h.hcyc i₀ hi₀) hiq hs0
    subst hq0
    cases x with
    | glob w a =>
      rcases hq with hq | hq
      · cases hq
      · obtain ⟨v, b, e⟩ := glob_reach h.h₀ hq; cases e
    | loc j =>
      obtain ⟨t, ht⟩ := hres j rfl
      have hjc : j ∈ c := by
        rcases hq with hq | hq
        · cases hq; exact hi₀
        · exact h.hc.clos i₀ hi₀ j ((h.conn hi₀ hi).more huse) hq
      rw [h.hc.unresolved j hjc] at ht; cases ht

theorem Rec.reach_mid (h : Rec eff U₀ U kinds ρ c) {i j : Nat} (hi : i ∈ c) (hj : j ∈ c) :
    Reaches (mid U kinds ρ) (.loc i) (.loc j) := by
  have use : ∀ j ∈ c, ∀ j' ∈ c, Uses (batch U₀ kinds) (.loc j') (.loc j) →
      Uses (mid U kinds ρ) (.loc j') (.loc j) := by
    rintro j hj j' hj' ⟨k, hk, hx⟩
    have hlt := h.hc.lt j' hj'
    refine ⟨_, mid_loc hlt, ?_⟩
    have hk' : kinds[j']? = some k := hk
    simp only [member, hk', Option.getD_some, Kind.mapKids, List.mem_map]
    exact ⟨.loc j, hx, by simp [resolve, h.hc.unresolved j hj]⟩
  have key : ∀ r s, Reaches (batch U₀ kinds) r s → r = .loc i → ∀ j, s = .loc j → j ∈ c →
      Reaches (mid U kinds ρ) (.loc i) (.loc j) := by
    intro r s hr
    induction hr with
    | one hu => rintro rfl j rfl hj; exact .one (use j hj i hi hu)
    | @more r2 r3 h1 hu ih =>
      rintro rfl j rfl hj
      cases r2 with
      | glob w a =>
        obtain ⟨v, b, e⟩ := glob_reach h.h₀ (.one hu); cases e
      | loc j' =>
        have hj' : j' ∈ c := h.hc.clos i hi j' h1 ((Reaches.one hu).trans (h.conn hj hi))
        exact .more (ih rfl j' rfl hj') (use j hj j' hj' hu)
  exact key _ _ (h.conn hi hj) rfl j rfl hj

theorem Rec.canon (h : Rec eff U₀ U kinds ρ c) {r s x : Ref} {k k' : Kind} (hr : U.look r = some k)
    (hs : U.look s = some k') (h1 : Same U.look (mid U kinds ρ) r x)
    (h2 : Same U.look (mid U kinds ρ) s x) : r = s :=
  h.st.inv.canon _ _ _ _ hr hs (h1.trans h2.symm)

/-- If a member of the component is stored, then the component is a world. -/
theorem Rec.world (h : Rec eff U₀ U kinds ρ c) {i₀ : Nat} (hi₀ : i₀ ∈ c) {r₀ : Ref} {k₀ : Kind}
    (hk₀ : U.look r₀ = some k₀) (hs₀ : Same U.look (mid U kinds ρ) r₀ (.loc i₀)) :
    ∃ (w : Nat) (m : Nat → Nat),
      (∀ j ∈ c, ∃ k, U.look (.glob (w + 1) (m j)) = some k ∧
        Same U.look (mid U kinds ρ) (.glob (w + 1) (m j)) (.loc j)) ∧
      ∀ b k, U.look (.glob (w + 1) b) = some k → ∃ j ∈ c, m j = b := by
  have partner : ∀ j ∈ c, ∃ r, Reaches U.look r₀ r ∧ Reaches U.look r r₀ ∧
      Same U.look (mid U kinds ρ) r (.loc j) := by
    intro j hj
    obtain ⟨r, h1, h2⟩ := hs₀.symm.reaches (h.reach_mid hi₀ hj)
    obtain ⟨r', h3, h4⟩ := h2.reaches (h.reach_mid hj hi₀)
    obtain ⟨k', hk'⟩ := h3.target h.st.inv.closed
    have := h.canon hk' hk₀ h4.symm hs₀
    subst this
    exact ⟨r, h1, h3, h2.symm⟩
  obtain ⟨w, a, rfl⟩ : ∃ w a, r₀ = .glob (w + 1) a := by
    obtain ⟨r, h1, h2, _⟩ := partner i₀ hi₀
    obtain ⟨w, a, _, e, _⟩ := h.st.inv.cyc _ _ h1 h2
    exact ⟨w, a, e⟩
  have partner' : ∀ j, ∃ b, j ∈ c → ∃ k, U.look (.glob (w + 1) b) = some k ∧
      Same U.look (mid U kinds ρ) (.glob (w + 1) b) (.loc j) := by
    intro j
    by_cases hj : j ∈ c
    · obtain ⟨r, h1, h2, h3⟩ := partner j hj
      obtain ⟨v, x, b, e1, e2⟩ := h.st.inv.cyc _ _ h1 h2
      cases e1; subst e2
      obtain ⟨k, hk⟩ := h1.target h.st.inv.closed
      exact ⟨b, fun _ => ⟨k, hk, h3⟩⟩
    · exact ⟨0, fun h => absurd h hj⟩
  choose m hm using partner'
  refine ⟨w, m, hm, ?_⟩
  have surj : ∀ s, Reaches U.look (.glob (w + 1) a) s → Reaches U.look s (.glob (w + 1) a) →
      ∃ j ∈ c, Same U.look (mid U kinds ρ) s (.loc j) := by
    have step : ∀ s' s j, j ∈ c → Same U.look (mid U kinds ρ) s' (.loc j) → Uses U.look s' s →
        Reaches U.look s (.glob (w + 1) a) → ∃ j ∈ c, Same U.look (mid U kinds ρ) s (.loc j) := by
      intro s' s j hj hs hu hback
      obtain ⟨b, ⟨k, hk, hb⟩, hsb⟩ := hs.uses hu
      rw [mid_loc (h.hc.lt j hj)] at hk; cases hk
      rcases member_kids h.h₀ h.hb h.st h.hc hj hb with ⟨j', hj', rfl⟩ | ⟨kb, hkb⟩
      · exact ⟨j', hj', hsb⟩
      · exfalso
        obtain ⟨ks, hks⟩ := hback.source
        have hbb := (ext_batch U (kinds.map (·.mapKids (resolve ρ)))).same h.st.inv.closed hkb
        have := h.canon hks hkb hsb hbb
        subst this
        exact h.leave hj hi₀ hb hkb (.inr hback) hs₀
    intro s hr
    induction hr with
    | one hu => exact fun hback => step _ _ i₀ hi₀ hs₀ hu hback
    | more h1 hu ih =>
      intro hback
      obtain ⟨j, hj, hsj⟩ := ih ((Reaches.one hu).trans hback)
      exact step _ _ j hj hsj hu hback
  intro b k hk
  obtain ⟨j, hj, hsj⟩ := surj _ (h.st.inv.strong w a b _ _ hk₀ hk) (h.st.inv.strong w b a _ _ hk hk₀)
  obtain ⟨k', hk', hs'⟩ := hm j hj
  have := h.canon hk' hk hs' hsj
  exact ⟨j, hj, by cases this; rfl⟩

/-! ## The group with local numbers -/

theorem toLocals_spec {ids : List Nat} : ∀ {rs rs' : List Ref}, toLocals ids rs = some rs' →
    List.Forall₂ (fun r r' => toLocal ids r = some r') rs rs'
  | [], rs', h => by cases h; exact .nil
  | r :: rs, rs', h => by
    rw [toLocals] at h
    split at h
    · next r1 rs1 h1 h2 => cases h; exact .cons h1 (toLocals_spec h2)
    · cases h

theorem toLocals_isSome {ids : List Nat} : ∀ {rs : List Ref}, (∀ j, .loc j ∈ rs → j ∈ ids) →
    ∃ rs', toLocals ids rs = some rs'
  | [], _ => ⟨[], rfl⟩
  | r :: rs, h => by
    obtain ⟨rs', h'⟩ := toLocals_isSome (rs := rs) fun j hj => h j (List.mem_cons_of_mem _ hj)
    have : ∃ r', toLocal ids r = some r' := by
      cases r with
      | glob w i => exact ⟨_, rfl⟩
      | loc j =>
        match hi : indexOf j ids with
        | none => exact absurd (h j List.mem_cons_self) (indexOf_none hi)
        | some b => exact ⟨.loc b, by simp [toLocal, hi]⟩
    obtain ⟨r', hr'⟩ := this
    exact ⟨r' :: rs', by rw [toLocals, hr', h']⟩

theorem localWorld_spec {ids : List Nat} : ∀ {ks lw : List Kind}, localWorld ids ks = some lw →
    lw.length = ks.length ∧ ∀ (a : Nat) (k : Kind), ks[a]? = some k → ∃ k', lw[a]? = some k' ∧
      k'.head = k.head ∧ List.Forall₂ (fun r r' => toLocal ids r = some r') k.kids k'.kids
  | [], lw, h => by cases h; exact ⟨rfl, fun a k hk => by simp at hk⟩
  | k0 :: ks, lw, h => by
    rw [localWorld] at h
    split at h
    · next kids ks' h1 h2 =>
      cases h
      obtain ⟨h3, h4⟩ := localWorld_spec h2
      refine ⟨by simp [h3], fun a k hk => ?_⟩
      cases a with
      | zero =>
        simp only [List.getElem?_cons_zero, Option.some.injEq] at hk
        subst hk
        exact ⟨_, rfl, rfl, toLocals_spec h1⟩
      | succ a => simpa using h4 a k (by simpa using hk)
    · cases h

theorem localWorld_isSome {ids : List Nat} : ∀ {ks : List Kind},
    (∀ k ∈ ks, ∀ j, .loc j ∈ k.kids → j ∈ ids) → ∃ lw, localWorld ids ks = some lw
  | [], _ => ⟨[], rfl⟩
  | k :: ks, h => by
    obtain ⟨lw, h1⟩ := localWorld_isSome (ks := ks) fun k' hk' => h k' (List.mem_cons_of_mem _ hk')
    obtain ⟨kids, h2⟩ := toLocals_isSome (h k List.mem_cons_self)
    exact ⟨⟨k.head, kids⟩ :: lw, by rw [localWorld, h2, h1]⟩

/-- A recursive component and its group with local numbers. -/
structure Group (eff : Nat → List (List Nat)) (U₀ U : Universe) (kinds : List Kind) (ρ : List (Option Ref))
    (c ids : List Nat) (lw : List Kind) : Prop extends Rec eff U₀ U kinds ρ c where
  perm : ids.Perm c
  lw_eq : localWorld ids (ids.map (member kinds ρ)) = some lw

variable {lw : List Kind}

theorem Group.length (h : Group eff U₀ U kinds ρ c ids lw) : lw.length = ids.length := by
  simpa using (localWorld_spec h.lw_eq).1

theorem Group.idsNodup (h : Group eff U₀ U kinds ρ c ids lw) : ids.Nodup :=
  h.perm.nodup_iff.2 h.hc.nodup

theorem Group.get (h : Group eff U₀ U kinds ρ c ids lw) {a i : Nat} (ha : ids[a]? = some i) :
    ∃ k', lw[a]? = some k' ∧ k'.head = (member kinds ρ i).head ∧
      List.Forall₂ (fun r r' => toLocal ids r = some r') (member kinds ρ i).kids k'.kids :=
  (localWorld_spec h.lw_eq).2 a _ (by simp [ha])

theorem Group.mem (h : Group eff U₀ U kinds ρ c ids lw) {a i : Nat} (ha : ids[a]? = some i) : i ∈ c :=
  h.perm.mem_iff.1 (List.mem_of_getElem? ha)

theorem Group.idx (h : Group eff U₀ U kinds ρ c ids lw) {a : Nat} {k : Kind} (ha : lw[a]? = some k) :
    ∃ i, ids[a]? = some i := by
  have := (List.getElem?_eq_some_iff.1 ha).1
  rw [h.length] at this
  exact ⟨_, List.getElem?_eq_getElem this⟩

theorem toLocal_cases {ids : List Nat} {r r' : Ref} (h : toLocal ids r = some r') :
    (∃ w i, r = .glob w i ∧ r' = .glob w i) ∨ ∃ j b, r = .loc j ∧ r' = .loc b ∧ ids[b]? = some j := by
  cases r with
  | glob w i => cases h; exact .inl ⟨w, i, rfl, rfl⟩
  | loc j =>
    match hi : indexOf j ids with
    | none => simp [toLocal, hi] at h
    | some b =>
      simp only [toLocal, hi, Option.map_some, Option.some.injEq] at h
      exact .inr ⟨j, b, rfl, h.symm, indexOf_some hi⟩

theorem Group.local_lt (h : Group eff U₀ U kinds ρ c ids lw) {a b : Nat} {k : Kind} (ha : lw[a]? = some k)
    (hb : .loc b ∈ k.kids) : b < lw.length := by
  obtain ⟨i, hi⟩ := h.idx ha
  obtain ⟨k', h1, _, h3⟩ := h.get hi
  rw [ha] at h1; cases h1
  obtain ⟨r, _, hr⟩ := forall2_mem_right h3 hb
  rcases toLocal_cases hr with ⟨w, i, _, e⟩ | ⟨j, b', _, e, hb'⟩
  · cases e
  · cases e
    rw [h.length]; exact (List.getElem?_eq_some_iff.1 hb').1

/-- What is stored in a world that matches means the same. -/
theorem Group.same (h : Group eff U₀ U kinds ρ c ids lw) (hext : Ext U.look U'.look) {w : Nat}
    {map : List Nat} (hm : Matches U'.look lw w map) {a i m : Nat} (ha : ids[a]? = some i)
    (hma : map[a]? = some m) : Same U'.look (mid U kinds ρ) (.glob w m) (.loc i) := by
  refine same_of_bisim (R := fun x y => (∃ a i m : Nat, ids[a]? = some i ∧ map[a]? = some m ∧
    x = .glob w m ∧ y = .loc i) ∨ (x = y ∧ ∃ k, U.look x = some k)) ?_ (.inl ⟨a, i, m, ha, hma, rfl, rfl⟩)
  rintro x y (⟨a, i, m, ha, hma, rfl, rfl⟩ | ⟨rfl, k, hk⟩)
  · obtain ⟨k', h1, h2, h3⟩ := h.get ha
    obtain ⟨m', e, h4, h5, h6, h7⟩ := hm.2 a k' h1
    rw [hma] at h4; cases h4
    refine ⟨e, _, h5, mid_loc (h.hc.lt i (h.mem ha)), h6.trans h2, ?_⟩
    rw [h7, List.forall₂_map_left_iff]
    have hkids : ∀ r ∈ (member kinds ρ i).kids, _ := fun r hr => member_kids h.h₀ h.hb h.st h.hc (h.mem ha) hr
    clear h7 h2 h1
    generalize (member kinds ρ i).kids = l at *
    generalize k'.kids = l' at *
    induction h3 with
    | nil => exact .nil
    | cons hab _ ih =>
      refine .cons ?_ (ih fun r hr => hkids r (List.mem_cons_of_mem _ hr))
      rcases toLocal_cases hab with ⟨v, b, rfl, rfl⟩ | ⟨j, b, rfl, rfl, hb⟩
      · rcases hkids _ List.mem_cons_self with ⟨j, _, e⟩ | hk
        · cases e
        · exact .inr ⟨rfl, hk⟩
      · have hbl : b < map.length := by
          rw [hm.1, h.length]; exact (List.getElem?_eq_some_iff.1 hb).1
        refine .inl ⟨b, j, map[b], hb, List.getElem?_eq_getElem hbl, ?_, rfl⟩
        simp [sub, List.getElem?_eq_getElem hbl]
  · refine ⟨k, k, hext _ _ hk, ext_batch _ _ _ _ hk, rfl, ?_⟩
    rw [List.forall₂_same]
    exact fun s hs => .inr ⟨rfl, h.st.inv.closed _ _ hk _ hs⟩

/-- A stored component is found. -/
theorem Group.found (h : Group eff U₀ U kinds ρ c ids lw) {i₀ : Nat} (hi₀ : i₀ ∈ c) {r₀ : Ref} {k₀ : Kind}
    (hk₀ : U.look r₀ = some k₀) (hs₀ : Same U.look (mid U kinds ρ) r₀ (.loc i₀)) :
    (findWorld lw 1 U.recs).isSome = true := by
  obtain ⟨w, m, h1, h2⟩ := h.world hi₀ hk₀ hs₀
  have hminj : ∀ i ∈ c, ∀ j ∈ c, m i = m j → i = j := by
    intro i hi j hj e
    obtain ⟨_, _, hsi⟩ := h1 i hi
    obtain ⟨_, _, hsj⟩ := h1 j hj
    rw [e] at hsi
    exact h.inj hi hj (hsi.symm.trans hsj)
  obtain ⟨world, hworld⟩ : ∃ world, U.recs[w]? = some world := by
    obtain ⟨k, hk, _⟩ := h1 i₀ hi₀
    simp only [Universe.look, Universe.world] at hk
    match hw : U.recs[w]? with
    | none => simp [hw] at hk
    | some world => exact ⟨world, rfl⟩
  have hlook : ∀ b, U.look (.glob (w + 1) b) = world[b]? := by
    intro b; simp [Universe.look, Universe.world, hworld]
  have hnd : (ids.map m).Nodup := by
    refine (List.nodup_map_iff_inj_on h.idsNodup).2 fun i hi j hj e => ?_
    exact hminj i (h.perm.mem_iff.1 hi) j (h.perm.mem_iff.1 hj) e
  have hlen : world.length = lw.length := by
    have hp : (ids.map m).Perm (List.range world.length) := by
      rw [List.perm_ext_iff_of_nodup hnd List.nodup_range]
      intro b
      rw [List.mem_range, List.mem_map]
      constructor
      · rintro ⟨j, hj, rfl⟩
        obtain ⟨k, hk, _⟩ := h1 j (h.perm.mem_iff.1 hj)
        rw [hlook] at hk
        exact (List.getElem?_eq_some_iff.1 hk).1
      · intro hb
        obtain ⟨j, hj, e⟩ := h2 b world[b] (by rw [hlook]; exact List.getElem?_eq_getElem hb)
        exact ⟨j, h.perm.mem_iff.2 hj, e⟩
    have := hp.length_eq
    rw [h.length]; simpa using this.symm
  have fit : ∀ (a : Nat) (k : Kind), lw[a]? = some k → ∃ (x : Nat) (e : Kind), (ids.map m)[a]? = some x ∧
      world[x]? = some e ∧ e.head = k.head ∧ e.kids = k.kids.map (sub (w + 1) (ids.map m)) := by
    intro a k ha
    obtain ⟨i, hi⟩ := h.idx ha
    obtain ⟨k', h3, h4, h5⟩ := h.get hi
    rw [ha] at h3; cases h3
    obtain ⟨e, he, hs⟩ := h1 i (h.mem hi)
    obtain ⟨k2, h6, h7, h8⟩ := hs.kids he
    rw [mid_loc (h.hc.lt i (h.mem hi))] at h6; cases h6
    refine ⟨m i, e, by simp [hi], by rw [← hlook]; exact he, h7.trans h4.symm, ?_⟩
    have hkids : ∀ r ∈ (member kinds ρ i).kids, _ := fun r hr => member_kids h.h₀ h.hb h.st h.hc (h.mem hi) hr
    have hv := h.st.inv.closed _ _ he
    clear h7 h4 he hs ha
    generalize (member kinds ρ i).kids = l at *
    generalize k.kids = l' at *
    generalize e.kids = l'' at *
    induction h5 generalizing l'' with
    | nil => cases h8; rfl
    | cons hab _ ih =>
      cases h8 with
      | cons hsr hrest =>
        rw [List.map_cons]
        congr 1
        · obtain ⟨ks, hks⟩ := hv _ List.mem_cons_self
          rcases toLocal_cases hab with ⟨v, b, rfl, rfl⟩ | ⟨j, b, rfl, rfl, hb⟩
          · rcases hkids _ List.mem_cons_self with ⟨j, _, e⟩ | ⟨kb, hkb⟩
            · cases e
            · exact h.canon hks hkb hsr ((ext_batch _ _).same h.st.inv.closed hkb)
          · obtain ⟨kj, hkj, hsj⟩ := h1 j (h.mem hb)
            rw [h.canon hks hkj hsr hsj]
            simp [sub, hb]
        · exact ih (fun r hr => hkids r (List.mem_cons_of_mem _ hr)) _
            (fun r hr => hv r (List.mem_cons_of_mem _ hr)) hrest
  refine findWorld_complete hworld hlen ?_
  rw [Nat.add_comm]
  refine findIso_complete (map := ids.map m) ⟨by simp [h.length], ?_⟩ hnd ?_
  · intro a k ha
    obtain ⟨x, e, h3, h4, h5, h6⟩ := fit a k ha
    refine ⟨x, e, h3, h4, ?_⟩
    simp only [kindMatches, h5, headMatches_refl, h6, Bool.true_and]
    refine kidsMatch_of fun j hj => ?_
    have := h.local_lt ha hj
    simpa [h.length] using this
  · intro a k x e ha hx he
    obtain ⟨x', e', h3, h4, h5, h6⟩ := fit a k ha
    rw [hx] at h3; cases h3
    rw [he] at h4; cases h4
    exact couldMatch_of_head h5.symm (by simp [h6])

end Ferlium.Intern
