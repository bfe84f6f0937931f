import Verif.Proofs.InternScc
import Verif.Props.Graph
import Mathlib.Data.String.Basic

/-! Storing a batch of kinds. -/

namespace Ferlium.Intern

variable {eff : Nat → List (List Nat)} {U₀ U U' : Universe} {kinds : List Kind} {ρ : List (Option Ref)}
  {c ids : List Nat} {lw : List Kind}

theorem dedup_nodup {α : Type} [DecidableEq α] : ∀ {l seen : List α}, (seen ++ l).Nodup →
    dedup seen l = seen ++ l
  | [], seen, _ => by simp [dedup]
  | a :: l, seen, h => by
    have ha : a ∉ seen := by
      intro ha
      exact (List.nodup_append.1 h).2.2 a ha a List.mem_cons_self rfl
    rw [dedup, if_neg ha, dedup_nodup (by simpa using h)]
    simp

theorem Group.effOk (h : Group eff U₀ U kinds ρ c ids lw) {a : Nat} {k : Kind} (ha : lw[a]? = some k) :
    EffOk eff k := by
  obtain ⟨i, hi⟩ := h.idx ha
  obtain ⟨k', h1, h2, h3⟩ := h.get hi
  rw [ha] at h1; cases h1
  have hlt := h.hc.lt i (h.mem hi)
  refine h.hb.effOk (List.getElem_mem hlt) ?_ ?_
  · rw [h2]; simp [member, Kind.mapKids, List.getElem?_eq_getElem hlt]
  · rw [← h3.length_eq]; simp [member, Kind.mapKids, List.getElem?_eq_getElem hlt]

theorem look_cache (U : Universe) (x : List (List Kind × Nat × List Nat)) :
    Universe.look { U with cache := x } = U.look := by
  funext r
  cases r with
  | loc i => rfl
  | glob w i => cases w <;> rfl

theorem Inv.withCache (hI : Inv eff U) {e : List Kind × Nat × List Nat}
    (he : Matches U.look e.1 e.2.1 e.2.2) : Inv eff { U with cache := e :: U.cache } := by
  constructor
  · rw [look_cache]; exact hI.closed
  · rw [look_cache]; exact hI.effects
  · rw [look_cache]; exact hI.canon
  · rw [look_cache]; exact hI.cyc
  · rw [look_cache]; exact hI.strong
  · rw [look_cache]
    intro e' he'
    rcases List.mem_cons.1 he' with rfl | h
    · exact he
    · exact hI.cache e' h
  · exact hI.grown.cache

theorem Group.toGlobal_same (h : Group eff U₀ U kinds ρ c ids lw) {a : Nat} {k : Kind} (ha : lw[a]? = some k)
    (w : Nat) : k.kids.map (toGlobal w) = k.kids.map (sub w (List.range lw.length)) := by
  refine List.map_congr_left fun r hr => ?_
  cases r with
  | glob v i => rfl
  | loc b =>
    have := h.local_lt ha hr
    simp [toGlobal, sub, this]

/-- The group is new. -/
theorem Group.new (h : Group eff U₀ U kinds ρ c ids lw) (hf : findWorld lw 1 U.recs = none) :
    let w := U.recs.length + 1
    let U' : Universe := ⟨U.main, U.recs ++ [dedup [] (lw.map (·.mapKids (toGlobal w)))],
      (lw, w, List.range lw.length) :: U.cache⟩
    Inv eff U' ∧ Ext U.look U'.look ∧ Matches U'.look lw w (List.range lw.length) := by
  intro w U'
  have hnone : ∀ i ∈ c, ∀ r k, U.look r = some k → ¬ Same U.look (mid U kinds ρ) r (.loc i) := by
    intro i hi r k hk hs
    have := h.found hi hk hs
    rw [hf] at this; cases this
  have hgone : ∀ a, U.look (.glob w a) = none := by
    intro a
    simp [w, Universe.look, Universe.world]
  -- no two members are equal
  have hnd : (lw.map (·.mapKids (toGlobal w))).Nodup := by
    rw [List.nodup_iff_injective_getElem]
    rintro ⟨a, ha⟩ ⟨b, hb⟩ e
    simp only [List.length_map] at ha hb
    simp only [List.getElem_map, Fin.mk.injEq] at e ⊢
    have hla : lw[a]? = some lw[a] := List.getElem?_eq_getElem ha
    have hlb : lw[b]? = some lw[b] := List.getElem?_eq_getElem hb
    obtain ⟨i, hi⟩ := h.idx hla
    obtain ⟨j, hj⟩ := h.idx hlb
    obtain ⟨ka, h1, h2, h3⟩ := h.get hi
    obtain ⟨kb, h4, h5, h6⟩ := h.get hj
    rw [hla] at h1; rw [hlb] at h4
    have ea := Option.some.inj h1
    have eb := Option.some.inj h4
    rw [ea, eb] at e
    simp only [Kind.mapKids, Kind.mk.injEq] at e
    have hkids : (member kinds ρ i).kids = (member kinds ρ j).kids := by
      have hva : ∀ r ∈ (member kinds ρ i).kids, _ := fun r hr => member_kids h.h₀ h.hb h.st h.hc (h.mem hi) hr
      have hvb : ∀ r ∈ (member kinds ρ j).kids, _ := fun r hr => member_kids h.h₀ h.hb h.st h.hc (h.mem hj) hr
      have e2 := e.2
      clear e h1 h2 h4 h5 ea eb hi hj
      generalize (member kinds ρ i).kids = l at *
      generalize (member kinds ρ j).kids = l' at *
      generalize ka.kids = m at *
      generalize kb.kids = m' at *
      induction h3 generalizing l' m' with
      | nil =>
        cases m' with
        | nil => cases h6; rfl
        | cons => simp at e2
      | cons hab _ ih =>
        cases m' with
        | nil => simp at e2
        | cons y m' =>
          cases h6 with
          | cons hxy hrest =>
            simp only [List.map_cons, List.cons.injEq] at e2
            congr 1
            · rcases toLocal_cases hab with ⟨v, x, rfl, rfl⟩ | ⟨i1, x, rfl, rfl, hx⟩ <;>
                rcases toLocal_cases hxy with ⟨v', x', rfl, rfl⟩ | ⟨i2, x', rfl, rfl, hx'⟩
              · exact e2.1
              · exfalso
                have := e2.1
                simp only [toGlobal, Ref.glob.injEq] at this
                rcases hva _ List.mem_cons_self with ⟨_, _, e⟩ | ⟨k, hk⟩
                · cases e
                · rw [this.1, hgone] at hk; cases hk
              · exfalso
                have := e2.1
                simp only [toGlobal, Ref.glob.injEq] at this
                rcases hvb _ List.mem_cons_self with ⟨_, _, e⟩ | ⟨k, hk⟩
                · cases e
                · rw [← this.1, hgone] at hk; cases hk
              · have := e2.1
                simp only [toGlobal, Ref.glob.injEq, true_and] at this
                subst this
                rw [hx] at hx'; cases hx'; rfl
            · exact ih (fun r hr => hva r (List.mem_cons_of_mem _ hr)) _ 
                (fun r hr => hvb r (List.mem_cons_of_mem _ hr)) _ hrest e2.2
    have hkk : member kinds ρ i = member kinds ρ j := by
      have hh : (member kinds ρ i).head = (member kinds ρ j).head := by rw [← h2, ← h5, e.1]
      cases hA : member kinds ρ i; cases hB : member kinds ρ j
      simp_all
    have hsame : Same (mid U kinds ρ) (mid U kinds ρ) (.loc i) (.loc j) := by
      intro n
      cases n with
      | zero => rfl
      | succ n =>
        simp only [Intern.unfold, mid_loc (h.hc.lt i (h.mem hi)), mid_loc (h.hc.lt j (h.mem hj)), hkk]
    have hij := h.inj (h.mem hi) (h.mem hj) hsame
    subst hij
    have hal : a < ids.length := by rw [← h.length]; exact ha
    have hbl : b < ids.length := by rw [← h.length]; exact hb
    rw [List.getElem?_eq_getElem hal] at hi
    rw [List.getElem?_eq_getElem hbl] at hj
    exact (List.Nodup.getElem_inj_iff h.idsNodup).1 (by rw [Option.some.inj hi, Option.some.inj hj])
  have hlook : ∀ v a, U'.look (.glob v a) =
      if v = w then (lw[a]?).map (·.mapKids (toGlobal w)) else U.look (.glob v a) := by
    intro v a
    have hd : dedup [] (lw.map (·.mapKids (toGlobal w))) = lw.map (·.mapKids (toGlobal w)) :=
      dedup_nodup (by simpa using hnd)
    cases v with
    | zero => simp [U', w, Universe.look, Universe.world]
    | succ v =>
      simp only [U', Universe.look, Universe.world, hd, w, Nat.add_right_cancel_iff]
      split
      · next e => subst e; simp
      · next e =>
        by_cases hv : v < U.recs.length
        · rw [List.getElem?_append_left hv]
        · rw [List.getElem?_eq_none (l := U.recs ++ _) (by simp; omega), List.getElem?_eq_none (l := U.recs) (by omega)]
  have hext : Ext U.look U'.look := by
    intro r k hk
    cases r with
    | loc i => cases hk
    | glob v a =>
      rw [hlook]
      split
      · next e => subst e; rw [hgone] at hk; cases hk
      · exact hk
  have hm : Matches U'.look lw w (List.range lw.length) := by
    refine ⟨by simp, fun a k ha => ⟨a, k.mapKids (toGlobal w), ?_, ?_, rfl, h.toGlobal_same ha w⟩⟩
    · have := (List.getElem?_eq_some_iff.1 ha).1
      simp [this]
    · rw [hlook, if_pos rfl, ha]; rfl
  have hnew : ∀ r k, U.look r = none → U'.look r = some k → ∃ a i k0, r = .glob w a ∧ ids[a]? = some i ∧
      lw[a]? = some k0 ∧ k = k0.mapKids (toGlobal w) ∧ Same U'.look (mid U kinds ρ) r (.loc i) := by
    intro r k h1 h2
    cases r with
    | loc i => cases h2
    | glob v a =>
      rw [hlook] at h2
      split at h2
      · next e =>
        subst e
        match ha : lw[a]? with
        | none => simp [ha] at h2
        | some k0 =>
          obtain ⟨i, hi⟩ := h.idx ha
          refine ⟨a, i, k0, rfl, hi, ha, ?_, ?_⟩
          · simpa [ha, eq_comm] using h2
          · refine h.same hext hm hi ?_
            have := (List.getElem?_eq_some_iff.1 ha).1
            simp [this]
      · rw [h1] at h2; cases h2
  have hold : ∀ r r' k k', U.look r = none → U'.look r = some k → U.look r' = some k' →
      ¬ Same U'.look U'.look r r' := by
    intro r r' k k' h1 h2 h3 hs
    obtain ⟨a, i, k0, rfl, hi, _, _, hsi⟩ := hnew r k h1 h2
    exact hnone i (h.mem hi) r' k' h3 (((hext.same h.st.inv.closed h3).trans hs.symm).trans hsi)
  have hnn : ∀ r r' k k', U.look r = none → U'.look r = some k → U.look r' = none → U'.look r' = some k' →
      Same U'.look U'.look r r' → r = r' := by
    intro r r' k k' h1 h2 h3 h4 hs
    obtain ⟨a, i, _, rfl, hi, _, _, hsi⟩ := hnew r k h1 h2
    obtain ⟨b, j, _, rfl, hj, _, _, hsj⟩ := hnew r' k' h3 h4
    have hij := h.inj (h.mem hi) (h.mem hj) (hsi.symm.trans (hs.trans hsj))
    subst hij
    have hal := (List.getElem?_eq_some_iff.1 hi).1
    have hbl := (List.getElem?_eq_some_iff.1 hj).1
    rw [List.getElem?_eq_getElem hal] at hi
    rw [List.getElem?_eq_getElem hbl] at hj
    rw [(List.Nodup.getElem_inj_iff h.idsNodup).1 ((Option.some.inj hi).trans (Option.some.inj hj).symm)]
  refine ⟨h.st.inv.extend hext ?_ hold hnn ?_ ?_ ?_ fun hc => ?_, hext, hm⟩
  rotate_right
  · refine Grown.cache (.group h.st.inv.grown fun k hk r hr => ?_)
    obtain ⟨i, hi⟩ := List.getElem?_of_mem hk
    refine hc (.glob w i) k ?_ r hr
    simpa [U', w, Universe.look, Universe.world] using hi
  · intro r k h1 h2
    obtain ⟨a, i, k0, rfl, hi, ha, rfl, _⟩ := hnew r k h1 h2
    refine ⟨fun s hs => ?_, ?_⟩
    · simp only [Kind.mapKids, List.mem_map] at hs
      obtain ⟨x, hx, rfl⟩ := hs
      obtain ⟨k', h3, _, h5⟩ := h.get hi
      rw [ha] at h3; cases h3
      cases x with
      | loc b =>
        have := h.local_lt ha hx
        exact ⟨(lw[b]).mapKids (toGlobal w), by simp [toGlobal, hlook, this]⟩
      | glob v b =>
        obtain ⟨r, hr, hrb⟩ := forall2_mem_right h5 hx
        rcases toLocal_cases hrb with ⟨v', b', rfl, e⟩ | ⟨j, b', rfl, e, _⟩
        · cases e
          rcases member_kids h.h₀ h.hb h.st h.hc (h.mem hi) hr with ⟨_, _, e⟩ | ⟨k, hk⟩
          · cases e
          · exact ⟨k, hext _ _ hk⟩
        · cases e
    · exact ⟨fun d e hde => (h.effOk ha).1 d e hde, (h.effOk ha).2.of_head rfl (by simp [Kind.mapKids])⟩
  · intro r r' k k' h1 h2 h3 h4 _ _
    obtain ⟨a, _, _, rfl, _⟩ := hnew r k h1 h2
    obtain ⟨b, _, _, rfl, _⟩ := hnew r' k' h3 h4
    exact ⟨U.recs.length, a, b, rfl, rfl⟩
  · intro v a b k k' hor h1 h2
    have hv : v + 1 = w := by
      rcases hor with hn | hn
      · obtain ⟨x, _, _, e, _⟩ := hnew _ _ hn h1; exact (Ref.glob.inj e).1
      · obtain ⟨x, _, _, e, _⟩ := hnew _ _ hn h2; exact (Ref.glob.inj e).1
    rw [hv] at h1 h2 ⊢
    obtain ⟨a', i, _, e, hi, _, _, hsi⟩ := hnew _ _ (hgone a) h1
    cases e
    obtain ⟨b', j, _, e, hj, _, _, hsj⟩ := hnew _ _ (hgone b) h2
    cases e
    obtain ⟨s, h3, h4⟩ := hsi.symm.reaches (h.reach_mid (h.mem hi) (h.mem hj))
    have hs : Same U'.look U'.look (.glob w b) s := hsj.trans h4
    obtain ⟨kb, hkb, _⟩ := hs.kids h2
    have : Ref.glob w b = s := by
      match hs' : U.look s with
      | none => exact hnn _ _ _ _ (hgone b) h2 hs' hkb hs
      | some _ => exact absurd hs (hold _ _ _ _ (hgone b) h2 hs')
    rw [this]; exact h3
  · intro e he
    rcases List.mem_cons.1 he with rfl | he
    · exact hm
    · exact (h.st.inv.cache e he).ext hext

theorem Group.place (h : Group eff U₀ U kinds ρ c ids lw) :
    Inv eff (placeWorld U lw).1 ∧ Ext U.look (placeWorld U lw).1.look ∧
      Matches (placeWorld U lw).1.look lw (placeWorld U lw).2.1 (placeWorld U lw).2.2 := by
  unfold placeWorld
  match hc : cached U lw with
  | some wm =>
    refine ⟨h.st.inv, fun _ _ h => h, ?_⟩
    simp only [cached, Option.map_eq_some_iff] at hc
    obtain ⟨e, he, rfl⟩ := hc
    have h1 : e.1 = lw := by simpa using List.find?_some he
    have := h.st.inv.cache e (List.mem_of_find?_eq_some he)
    rw [h1] at this; exact this
  | none =>
    match hf : findWorld lw 1 U.recs with
    | some (w, map) =>
      have hm : Matches U.look lw w map := by
        obtain ⟨i, world, rfl, hw, hfit⟩ := findWorld_sound hf
        refine ⟨hfit.1, fun j k hk => ?_⟩
        obtain ⟨m, e, h1, h2, h3⟩ := hfit.2 j k hk
        have hl : U.look (.glob (1 + i) m) = some e := by
          rw [Nat.add_comm]
          simpa [Universe.look, Universe.world, hw] using h2
        simp only [kindMatches, Bool.and_eq_true] at h3
        exact ⟨m, e, h1, hl, headMatches_eq (h.effOk hk) (h.st.inv.effects _ _ hl) h3.1, kidsMatch_sub h3.2⟩
      refine ⟨h.st.inv.withCache hm, ?_, ?_⟩
      · simp only [look_cache]; exact fun _ _ h => h
      · simp only [look_cache]; exact hm
    | none => exact h.new hf

/-! ## The result -/

theorem mark_length {w : Nat} : ∀ (ids map : List Nat) (ρ : List (Option Ref)),
    (mark w ids map ρ).length = ρ.length
  | [], _, _ => by simp [mark]
  | _ :: _, [], _ => by simp [mark]
  | i :: ids, m :: map, ρ => by rw [mark, mark_length]; simp

theorem mark_other {w : Nat} : ∀ {ids map : List Nat} {ρ : List (Option Ref)} {i : Nat}, i ∉ ids →
    (mark w ids map ρ)[i]? = ρ[i]?
  | [], _, _, _, _ => by simp [mark]
  | _ :: _, [], _, _, _ => by simp [mark]
  | j :: ids, m :: map, ρ, i, h => by
    simp only [List.mem_cons, not_or] at h
    rw [mark, mark_other h.2, List.getElem?_set_ne (fun e => h.1 e.symm)]

theorem mark_get {w : Nat} : ∀ {ids map : List Nat} {ρ : List (Option Ref)} {a i m : Nat}, ids.Nodup →
    ids[a]? = some i → map[a]? = some m → i < ρ.length →
    (mark w ids map ρ)[i]? = some (some (.glob w m))
  | [], _, _, _, _, _, _, h, _, _ => by simp at h
  | _ :: _, [], _, _, _, _, _, _, h, _ => by simp at h
  | j :: ids, x :: map, ρ, a, i, m, hnd, hi, hm, hl => by
    rw [List.nodup_cons] at hnd
    rw [mark]
    cases a with
    | zero =>
      simp only [List.getElem?_cons_zero, Option.some.injEq] at hi hm
      subst hi; subst hm
      rw [mark_other hnd.1, List.getElem?_set_self hl]
    | succ a =>
      exact mark_get hnd.2 (by simpa using hi) (by simpa using hm) (by simpa using hl)

theorem insertScc_spec (le : Kind → Kind → Bool) (h₀ : Inv eff U₀) (hb : Good eff U₀ kinds)
    (st : State eff U₀ kinds U ρ) (hc : Comp U₀ kinds ρ c) :
    ∃ U' ρ', insertScc le U kinds ρ c = some (U', ρ') ∧ State eff U₀ kinds U' ρ' ∧
      Ext U.look U'.look ∧ (∀ i ∈ c, ∃ r, ρ'[i]? = some (some r)) ∧ ∀ (j : Nat), j ∉ c → ρ'[j]? = ρ[j]? := by
  unfold insertScc
  match hp : plain kinds ρ c with
  | some (i, ws) =>
    obtain ⟨rfl, hws⟩ : c = [i] ∧ worldsToCheck none (member kinds ρ i).kids = some ws := by
      match c, hp with
      | [], hp => cases hp
      | [j], hp =>
        simp only [plain, Option.map_eq_some_iff, Prod.mk.injEq] at hp
        obtain ⟨_, h1, rfl, rfl⟩ := hp
        exact ⟨rfl, h1⟩
      | _ :: _ :: _, hp => cases hp
    have hi : i ∈ [i] := List.mem_singleton_self i
    have hlt := hc.lt i hi
    have hkids : ∀ s ∈ (member kinds ρ i).kids, ∃ k', U.look s = some k' := by
      intro s hs
      rcases member_kids h₀ hb st hc hi hs with ⟨j, _, rfl⟩ | h
      · exact absurd hs (worldsToCheck_glob hws j)
      · exact h
    have heff : EffOk eff (member kinds ρ i) := by
      refine hb.effOk (List.getElem_mem hlt) ?_ ?_ <;>
        simp [member, Kind.mapKids, List.getElem?_eq_getElem hlt]
    obtain ⟨h1, h2, h3⟩ := insertNonRecursive_spec st.inv hws hkids heff
    refine ⟨(insertNonRecursive U (member kinds ρ i) ws).1,
      ρ.set i (some (insertNonRecursive U (member kinds ρ i) ws).2), rfl,
      ⟨h1, fun r k hk => h2 _ _ (st.ext _ _ hk), by simp [st.len], ?_⟩, h2, ?_, ?_⟩
    · intro j r hr
      by_cases hj : j = i
      · subst hj
        rw [List.getElem?_set_self (by rw [st.len]; exact hlt)] at hr
        simp only [Option.some.injEq] at hr
        subst hr
        refine ⟨⟨_, h3⟩, Same.trans (L' := mid U kinds ρ) ?_ (same_mid h₀ hb st hlt)⟩
        intro n
        cases n with
        | zero => rfl
        | succ n =>
          simp only [Intern.unfold, h3, mid_loc hlt, Tree.node.injEq, true_and]
          refine List.map_congr_left fun s hs => ?_
          obtain ⟨k', hk'⟩ := hkids s hs
          exact ((h2.same st.inv.closed hk').symm.trans ((ext_batch _ _).same st.inv.closed hk')) n
      · rw [List.getElem?_set_ne (fun e => hj e.symm)] at hr
        obtain ⟨⟨k, hk⟩, hs⟩ := st.res j r hr
        exact ⟨⟨k, h2 _ _ hk⟩, (h2.same st.inv.closed hk).symm.trans hs⟩
    · intro j hj
      rw [List.mem_singleton] at hj
      subst hj
      exact ⟨_, List.getElem?_set_self (by rw [st.len]; exact hlt)⟩
    · intro j hj
      rw [List.mem_singleton] at hj
      exact List.getElem?_set_ne (fun e => hj e.symm)
  | none =>
    have hcyc : ∀ i ∈ c, Reaches (batch U₀ kinds) (.loc i) (.loc i) := by
      intro i hi
      by_cases hother : ∃ j ∈ c, i ≠ j
      · obtain ⟨j, hj, hne⟩ := hother
        exact (hc.conn i hi j hj hne).trans (hc.conn j hj i hi (fun e => hne e.symm))
      · have hall : ∀ j ∈ c, j = i := by
          intro j hj
          by_contra hne
          exact hother ⟨j, hj, fun e => hne e.symm⟩
        have hci : c = [i] := by
          match c, hc.nodup, hall, hi with
          | [], _, _, hi => simp at hi
          | [x], _, hall, _ => rw [hall x List.mem_cons_self]
          | x :: y :: _, hnd, hall, _ =>
            exfalso
            rw [hall x (by simp), hall y (by simp)] at hnd
            simp at hnd
        subst hci
        have hn : worldsToCheck none (member kinds ρ i).kids = none := by simpa [plain] using hp
        obtain ⟨j, hj⟩ := worldsToCheck_none hn
        rcases member_kids h₀ hb st hc hi hj with ⟨j', hj', e⟩ | ⟨k, hk⟩
        · cases e
          have hji := hall j hj'
          subst hji
          have hlt := hc.lt j hi
          simp only [member, Kind.mapKids, List.getElem?_eq_getElem hlt, Option.getD_some, List.mem_map] at hj
          obtain ⟨x, hx, hxe⟩ := hj
          rcases resolve_rel h₀ hb st (List.getElem_mem hlt) hx with ⟨j', _, h2, h3, _⟩ | ⟨⟨k, hk⟩, _⟩
          · rw [h2] at hxe; cases hxe
            subst h3
            exact .one ⟨_, List.getElem?_eq_getElem hlt, hx⟩
          · rw [hxe] at hk; cases hk
        · cases hk
    have hrec : Rec eff U₀ U kinds ρ c := ⟨h₀, hb, st, hc, hcyc⟩
    simp only
    generalize hids : sortBy (fun a b => le (member kinds ρ a) (member kinds ρ b)) c = ids
    have hperm : ids.Perm c := hids ▸ sortBy_perm _ c
    obtain ⟨lw, hlw⟩ : ∃ lw, localWorld ids (ids.map (member kinds ρ)) = some lw := by
      refine localWorld_isSome fun k hk j hj => ?_
      obtain ⟨i, hi, rfl⟩ := List.mem_map.1 hk
      rcases member_kids h₀ hb st hc (hperm.mem_iff.1 hi) hj with ⟨j', hj', e⟩ | ⟨k, hk⟩
      · cases e; exact hperm.mem_iff.2 hj'
      · cases hk
    have hg : Group eff U₀ U kinds ρ c ids lw := { toRec := hrec, perm := hperm, lw_eq := hlw }
    obtain ⟨h1, h2, h3⟩ := hg.place
    rw [hlw]
    refine ⟨_, _, rfl, ?_⟩
    generalize hU' : (placeWorld U lw).1 = U' at *
    generalize (placeWorld U lw).2.1 = w at *
    generalize (placeWorld U lw).2.2 = map at *
    have hget : ∀ (i : Nat), i ∈ c → ∃ (a m : Nat), ids[a]? = some i ∧ map[a]? = some m ∧
        (mark w ids map ρ)[i]? = some (some (.glob w m)) := by
      intro i hi
      obtain ⟨a, ha⟩ := List.mem_iff_getElem?.1 (hperm.mem_iff.2 hi)
      have hal : a < map.length := by
        rw [h3.1, hg.length]; exact (List.getElem?_eq_some_iff.1 ha).1
      refine ⟨a, map[a], ha, List.getElem?_eq_getElem hal, ?_⟩
      exact mark_get hg.idsNodup ha (List.getElem?_eq_getElem hal) (by rw [st.len]; exact hc.lt i hi)
    refine ⟨⟨h1, fun r k hk => h2 _ _ (st.ext _ _ hk), by rw [mark_length, st.len], ?_⟩, h2, ?_, ?_⟩
    · intro j r hr
      by_cases hj : j ∈ c
      · obtain ⟨a, m, ha, hm, hmk⟩ := hget j hj
        rw [hmk] at hr
        simp only [Option.some.injEq] at hr
        subst hr
        have hs := hg.same h2 h3 ha hm
        refine ⟨?_, hs.trans (same_mid h₀ hb st (hc.lt j hj))⟩
        obtain ⟨k', hk', _⟩ := hs.symm.kids (mid_loc (hc.lt j hj))
        exact ⟨k', hk'⟩
      · rw [mark_other (fun h => hj (hperm.mem_iff.1 h))] at hr
        obtain ⟨⟨k, hk⟩, hs⟩ := st.res j r hr
        exact ⟨⟨k, h2 _ _ hk⟩, (h2.same st.inv.closed hk).symm.trans hs⟩
    · intro i hi
      obtain ⟨_, m, _, _, hmk⟩ := hget i hi
      exact ⟨_, hmk⟩
    · intro j hj
      exact mark_other (fun h => hj (hperm.mem_iff.1 h))

/-! ## All components -/

/-- The components, callees first. -/
structure Order (U₀ : Universe) (kinds : List Kind) (done : List Nat) (sccs : List (List Nat)) : Prop where
  nodup : (done ++ sccs.flatten).Nodup
  lt : ∀ c ∈ sccs, ∀ i ∈ c, i < kinds.length
  conn : ∀ c ∈ sccs, ∀ i ∈ c, ∀ j ∈ c, i ≠ j → Reaches (batch U₀ kinds) (.loc i) (.loc j)
  clos : ∀ c ∈ sccs, ∀ i ∈ c, ∀ j, Reaches (batch U₀ kinds) (.loc i) (.loc j) →
    Reaches (batch U₀ kinds) (.loc j) (.loc i) → j ∈ c
  kids : ∀ A c B, sccs = A ++ c :: B → ∀ i ∈ c, ∀ k, kinds[i]? = some k → ∀ j, .loc j ∈ k.kids →
    j ∈ c ∨ j ∈ A.flatten ∨ j ∈ done

theorem insertSccs_spec (le : Kind → Kind → Bool) (h₀ : Inv eff U₀) (hb : Good eff U₀ kinds) :
    ∀ (sccs : List (List Nat)) (U : Universe) (ρ : List (Option Ref)) (done : List Nat),
      State eff U₀ kinds U ρ → Order U₀ kinds done sccs →
      (∀ j ∈ done, ∃ r, ρ[j]? = some (some r)) → (∀ j, j < kinds.length → j ∉ done → ρ[j]? = some none) →
      ∃ U' ρ', insertSccs le kinds U ρ sccs = some (U', ρ') ∧ State eff U₀ kinds U' ρ' ∧
        ∀ j ∈ done ++ sccs.flatten, ∃ r, ρ'[j]? = some (some r)
  | [], U, ρ, done, st, _, hd, _ => ⟨U, ρ, rfl, st, by simpa using hd⟩
  | c :: rest, U, ρ, done, st, ho, hd, hnd => by
    have hmem : c ∈ c :: rest := List.mem_cons_self
    have hdisj : ∀ i ∈ c, i ∉ done := by
      intro i hi hdone
      refine (List.nodup_append.1 ho.nodup).2.2 i hdone i ?_ rfl
      simp [hi]
    have hc : Comp U₀ kinds ρ c := by
      refine ⟨?_, ho.lt c hmem, fun i hi => hnd i (ho.lt c hmem i hi) (hdisj i hi), ho.conn c hmem,
        ho.clos c hmem, ?_⟩
      · have := (List.nodup_append.1 ho.nodup).2.1
        rw [List.flatten_cons] at this
        exact (List.nodup_append.1 this).1
      · intro i hi k hk j hj
        rcases ho.kids [] c rest rfl i hi k hk j hj with h | h | h
        · exact .inl h
        · simp at h
        · exact .inr (hd j h)
    obtain ⟨U1, ρ1, h1, st1, _, h3, h4⟩ := insertScc_spec le h₀ hb st hc
    have ho1 : Order U₀ kinds (done ++ c) rest := by
      refine ⟨by simpa using ho.nodup, fun c' hc' => ho.lt c' (List.mem_cons_of_mem _ hc'),
        fun c' hc' => ho.conn c' (List.mem_cons_of_mem _ hc'),
        fun c' hc' => ho.clos c' (List.mem_cons_of_mem _ hc'), ?_⟩
      intro A c' B e i hi k hk j hj
      rcases ho.kids (c :: A) c' B (by rw [e]; rfl) i hi k hk j hj with h | h | h
      · exact .inl h
      · simp only [List.flatten_cons, List.mem_append] at h
        rcases h with h | h
        · exact .inr (.inr (by simp [h]))
        · exact .inr (.inl h)
      · exact .inr (.inr (by simp [h]))
    obtain ⟨U2, ρ2, h5, st2, h6⟩ := insertSccs_spec le h₀ hb rest U1 ρ1 (done ++ c) st1 ho1
      (by
        intro j hj
        by_cases hjc : j ∈ c
        · exact h3 j hjc
        · rw [h4 j hjc]
          exact hd j (by simpa [hjc] using hj))
      (by
        intro j hj hnot
        simp only [List.mem_append, not_or] at hnot
        rw [h4 j hnot.2]
        exact hnd j hj hnot.1)
    refine ⟨U2, ρ2, by rw [insertSccs, h1]; exact h5, st2, ?_⟩
    intro j hj
    exact h6 j (by simpa using hj)

/-! ## Normal kinds -/

theorem insertBy_pairwise {α : Type} {le : α → α → Bool} (htot : ∀ a b, le a b = true ∨ le b a = true)
    (htrans : ∀ a b c, le a b = true → le b c = true → le a c = true) (a : α) :
    ∀ {l : List α}, l.Pairwise (fun x y => le x y = true) → (insertBy le a l).Pairwise (fun x y => le x y = true)
  | [], _ => by simp [insertBy]
  | b :: rest, h => by
    rw [List.pairwise_cons] at h
    rw [insertBy]
    split
    · next hab =>
      refine List.pairwise_cons.2 ⟨fun x hx => ?_, List.pairwise_cons.2 h⟩
      rcases List.mem_cons.1 hx with rfl | hx
      · exact hab
      · exact htrans _ _ _ hab (h.1 x hx)
    · next hab =>
      refine List.pairwise_cons.2 ⟨fun x hx => ?_, insertBy_pairwise htot htrans a h.2⟩
      rcases List.mem_cons.1 ((insertBy_perm le a rest).mem_iff.1 hx) with rfl | hx
      · exact (htot b x).resolve_right hab
      · exact h.1 x hx

theorem sortBy_pairwise {α : Type} {le : α → α → Bool} (htot : ∀ a b, le a b = true ∨ le b a = true)
    (htrans : ∀ a b c, le a b = true → le b c = true → le a c = true) :
    ∀ l : List α, (sortBy le l).Pairwise (fun x y => le x y = true)
  | [] => .nil
  | a :: l => insertBy_pairwise htot htrans a (sortBy_pairwise htot htrans l)

theorem sortBy_of_pairwise {α : Type} {le : α → α → Bool} : ∀ {l : List α},
    l.Pairwise (fun x y => le x y = true) → sortBy le l = l
  | [], _ => rfl
  | a :: l, h => by
    rw [List.pairwise_cons] at h
    rw [sortBy, sortBy_of_pairwise h.2]
    cases l with
    | nil => rfl
    | cons b l => rw [insertBy, if_pos (h.1 b List.mem_cons_self)]

theorem names_total (a b : String × Ref) : decide (a.1 ≤ b.1) = true ∨ decide (b.1 ≤ a.1) = true := by
  simpa using le_total a.1 b.1

theorem names_trans (a b c : String × Ref) (h1 : decide (a.1 ≤ b.1) = true) (h2 : decide (b.1 ≤ c.1) = true) :
    decide (a.1 ≤ c.1) = true := by
  simp only [decide_eq_true_eq] at *
  exact le_trans h1 h2

theorem normalize_sorted (k : Kind) : k.normalize.Sorted := by
  have key : ∀ ns kids, ((sortFields ns kids).map (·.1)).Pairwise (· ≤ ·) := by
    intro ns kids
    rw [List.pairwise_map]
    exact (sortBy_pairwise names_total names_trans _).imp fun h => by simpa using h
  unfold Kind.normalize
  split
  · exact ⟨key _ _, by simp⟩
  · exact ⟨key _ _, by simp⟩
  · next h1 h2 =>
    unfold Kind.Sorted
    split
    · next ns h => exact absurd h (h1 ns)
    · next ns h => exact absurd h (h2 ns)
    · trivial

theorem normalize_of_sorted {k : Kind} (h : k.Sorted) : k.normalize = k := by
  have key : ∀ ns : List String, ns.Pairwise (· ≤ ·) → ns.length = k.kids.length →
      (sortFields ns k.kids).map (·.1) = ns ∧ (sortFields ns k.kids).map (·.2) = k.kids := by
    intro ns hp hl
    have : sortFields ns k.kids = ns.zip k.kids := by
      refine sortBy_of_pairwise ?_
      have h1 : ((ns.zip k.kids).map (·.1)).Pairwise (· ≤ ·) := by
        have : (ns.zip k.kids).map (·.1) = ns := List.map_fst_zip (by omega)
        rw [this]; exact hp
      rw [List.pairwise_map] at h1
      exact h1.imp fun h => by simpa using h
    rw [this]
    exact ⟨List.map_fst_zip (by omega), List.map_snd_zip (by omega)⟩
  obtain ⟨head, kids⟩ := k
  unfold Kind.normalize
  unfold Kind.Sorted at h
  cases head <;> simp_all

theorem Batch.good {eff : Nat → List (List Nat)} {U : Universe} {kinds : List Kind}
    (h : Batch eff U (kinds.map Kind.normalize)) : Good eff U (kinds.map Kind.normalize) :=
  { h with
    sorted := fun k hk => by
      obtain ⟨k', _, rfl⟩ := List.mem_map.1 hk
      exact normalize_sorted k' }

/-! ## Batches -/

theorem insertPlain_spec : ∀ (ks : List (Kind × List Nat)) (U : Universe), Inv eff U →
    (∀ p ∈ ks, worldsToCheck none p.1.kids = some p.2 ∧ (∀ s ∈ p.1.kids, ∃ k', U.look s = some k') ∧
      EffOk eff p.1) →
    Inv eff (insertPlain U ks).1 ∧ Ext U.look (insertPlain U ks).1.look ∧
      (insertPlain U ks).2.length = ks.length ∧
      ∀ (i : Nat) p, ks[i]? = some p → ∃ r, (insertPlain U ks).2[i]? = some r ∧
        (insertPlain U ks).1.look r = some p.1
  | [], U, hI, _ => ⟨hI, fun _ _ h => h, rfl, fun i p h => by simp at h⟩
  | (k, ws) :: rest, U, hI, hks => by
    obtain ⟨h1, h2, h3, h4⟩ := insertPlain_spec rest U hI fun p hp => hks p (List.mem_cons_of_mem _ hp)
    obtain ⟨h5, h6, h7⟩ := hks (k, ws) List.mem_cons_self
    obtain ⟨h8, h9, h10⟩ := insertNonRecursive_spec h1 h5
      (fun s hs => (h6 s hs).imp fun _ h => h2 _ _ h) h7
    refine ⟨h8, fun r k' h => h9 _ _ (h2 _ _ h), by simp [insertPlain, h3], fun i p hp => ?_⟩
    cases i with
    | zero =>
      simp only [List.getElem?_cons_zero, Option.some.injEq] at hp
      subst hp
      exact ⟨_, rfl, h10⟩
    | succ i =>
      obtain ⟨r, h11, h12⟩ := h4 i p (by simpa using hp)
      exact ⟨r, by simpa [insertPlain] using h11, h9 _ _ h12⟩

theorem allPlain_spec : ∀ {kinds : List Kind} {ks : List (Kind × List Nat)}, allPlain kinds = some ks →
    ks.map (·.1) = kinds ∧ ∀ p ∈ ks, worldsToCheck none p.1.kids = some p.2
  | [], ks, h => by cases h; simp
  | k :: rest, ks, h => by
    rw [allPlain] at h
    split at h
    · next ws ks' h1 h2 =>
      cases h
      obtain ⟨h3, h4⟩ := allPlain_spec h2
      refine ⟨by simp [h3], fun p hp => ?_⟩
      rcases List.mem_cons.1 hp with rfl | hp
      · exact h1
      · exact h4 p hp
    · cases h

open Graph in
theorem edge_iff {i j : Nat} : Edge (kinds.map neighbours) i j ↔ Uses (batch U₀ kinds) (.loc i) (.loc j) := by
  constructor
  · rintro ⟨l, hl, hj⟩
    simp only [List.getElem?_map, Option.map_eq_some_iff] at hl
    obtain ⟨k, hk, rfl⟩ := hl
    refine ⟨k, hk, ?_⟩
    simp only [neighbours, List.mem_filterMap] at hj
    obtain ⟨r, hr, he⟩ := hj
    cases r with
    | loc x => cases he; exact hr
    | glob w x => cases he
  · rintro ⟨k, hk, hj⟩
    have hk' : kinds[i]? = some k := hk
    refine ⟨neighbours k, by simp [hk'], ?_⟩
    simp only [neighbours, List.mem_filterMap]
    exact ⟨.loc j, hj, rfl⟩

open Graph in
theorem reach_of_reaches (h₀ : Inv eff U₀) {i j : Nat} (h : Reaches (batch U₀ kinds) (.loc i) (.loc j)) :
    Reach (kinds.map neighbours) i j := by
  have key : ∀ r s, Reaches (batch U₀ kinds) r s → r = .loc i → ∀ j, s = .loc j →
      Reach (kinds.map neighbours) i j := by
    intro r s hr
    induction hr with
    | one hu => rintro rfl j rfl; exact .single (edge_iff.2 hu)
    | @more r2 r3 h1 hu ih =>
      rintro rfl j rfl
      cases r2 with
      | glob w a => obtain ⟨v, b, e⟩ := glob_reach h₀ (.one hu); cases e
      | loc j' => exact (ih rfl j' rfl).tail (edge_iff.2 hu)
  exact key _ _ h rfl j rfl

open Graph in
theorem reaches_of_reach {i j : Nat} (h : Reach (kinds.map neighbours) i j) (hne : i ≠ j) :
    Reaches (batch U₀ kinds) (.loc i) (.loc j) := by
  have key : i = j ∨ Reaches (batch U₀ kinds) (.loc i) (.loc j) := by
    clear hne
    induction h with
    | refl => exact .inl rfl
    | tail _ he ih =>
      rcases ih with rfl | ih
      · exact .inr (.one (edge_iff.1 he))
      · exact .inr (.more ih (edge_iff.1 he))
  exact key.resolve_left hne

open Graph in
/-- The components of the graph of a batch. -/
theorem order_of (h₀ : Inv eff U₀) (hb : Good eff U₀ kinds) {order : List Nat → List Nat}
    (horder : ∀ l, (order l).Perm l) :
    ∃ sccs, (if kinds.length = 1 then some [[0]]
      else componentsCalleesFirst order (kinds.map neighbours)) = some sccs ∧ Order U₀ kinds [] sccs ∧
      sccs.flatten.Perm (List.range kinds.length) := by
  have hwf : WF (kinds.map neighbours) := by
    intro i j he
    obtain ⟨k, hk, hj⟩ := (edge_iff (U₀ := U₀)).1 he
    have hk0 : kinds[i]? = some k := hk
    obtain ⟨k', hk'⟩ := hb.exist k (List.mem_of_getElem? hk0) _ hj
    simpa using (List.getElem?_eq_some_iff.1 hk').1
  by_cases h1 : kinds.length = 1
  · rw [if_pos h1]
    have hloc : ∀ j k, batch U₀ kinds (.loc j) = some k → j = 0 := by
      intro j k hk
      have := (List.getElem?_eq_some_iff.1 hk).1
      omega
    refine ⟨[[0]], rfl, ⟨by simp, by simp [h1], by simp, ?_, ?_⟩, by simp [h1]⟩
    · intro c hc i hi j _ hr
      obtain ⟨k, hk⟩ := hr.source
      rw [hloc j k hk]
      simp at hc; simp [hc]
    · intro A c B e i hi k hk j hj
      obtain ⟨k', hk'⟩ := hb.exist k (List.mem_of_getElem? hk) _ hj
      rw [hloc j k' hk']
      match A, e with
      | [], e =>
        simp only [List.nil_append, List.cons.injEq] at e
        rw [← e.1]; simp
      | _ :: A, e => simp at e
  · rw [if_neg h1]
    obtain ⟨r, hr, hperm, hclass, hedge⟩ := C23_callees_first _ hwf order horder
    have hperm' : r.flatten.Perm (List.range kinds.length) := by simpa using hperm
    refine ⟨r, hr, ⟨?_, ?_, ?_, ?_, ?_⟩, hperm'⟩
    · simpa using hperm'.nodup_iff.2 List.nodup_range
    · intro c hc i hi
      exact List.mem_range.1 (hperm'.mem_iff.1 (List.mem_flatten.2 ⟨c, hc, hi⟩))
    · intro c hc i hi j hj hne
      exact reaches_of_reach (((hclass c hc).2 i hi j).1 hj).1 hne
    · intro c hc i hi j h2 h3
      exact ((hclass c hc).2 i hi j).2 ⟨reach_of_reaches h₀ h2, reach_of_reaches h₀ h3⟩
    · intro A c B e i hi k hk j hj
      have : Edge (kinds.map neighbours) i j := (edge_iff (U₀ := U₀)).2 ⟨k, hk, hj⟩
      rcases hedge A c B e i hi j (.single this) with h | h
      · exact .inl h
      · exact .inr (.inl h)

/-- Storing a batch. -/
theorem insertNormal_spec {order : List Nat → List Nat} (horder : ∀ l, (order l).Perm l)
    (le : Kind → Kind → Bool) (h₀ : Inv eff U₀) (hb : Good eff U₀ kinds) :
    ∃ U' types, insertNormal order le U₀ kinds = some (U', types) ∧ Inv eff U' ∧ Ext U₀.look U'.look ∧
      types.length = kinds.length ∧
      ∀ (i : Nat) r, types[i]? = some r → (∃ k, U'.look r = some k) ∧
        Same U'.look (batch U₀ kinds) r (.loc i) := by
  unfold insertNormal
  match hp : allPlain kinds with
  | some ks =>
    obtain ⟨hmap, hws⟩ := allPlain_spec hp
    have hks : ∀ p ∈ ks, worldsToCheck none p.1.kids = some p.2 ∧
        (∀ s ∈ p.1.kids, ∃ k', U₀.look s = some k') ∧ EffOk eff p.1 := by
      intro p hpm
      have hk : p.1 ∈ kinds := hmap ▸ List.mem_map_of_mem hpm
      refine ⟨hws p hpm, fun s hs => ?_, hb.effOk hk rfl rfl⟩
      cases s with
      | loc j => exact absurd hs (worldsToCheck_glob (hws p hpm) j)
      | glob w i => exact hb.exist _ hk _ hs
    obtain ⟨h1, h2, h3, h4⟩ := insertPlain_spec ks U₀ h₀ hks
    refine ⟨_, _, rfl, h1, h2, by rw [h3, ← hmap]; simp, ?_⟩
    intro i r hr
    have hil : i < ks.length := by rw [← h3]; exact (List.getElem?_eq_some_iff.1 hr).1
    obtain ⟨r', h5, h6⟩ := h4 i _ (List.getElem?_eq_getElem hil)
    rw [hr] at h5; cases h5
    refine ⟨⟨_, h6⟩, fun n => ?_⟩
    have hki : batch U₀ kinds (.loc i) = some ks[i].1 := by
      simp [batch, ← hmap, List.getElem?_eq_getElem hil]
    cases n with
    | zero => rfl
    | succ n =>
      simp only [Intern.unfold, h6, hki, Tree.node.injEq, true_and]
      refine List.map_congr_left fun s hs => ?_
      obtain ⟨k', hk'⟩ := (hks _ (List.getElem_mem hil)).2.1 s hs
      exact ((h2.same h₀.closed hk').symm.trans ((ext_batch _ _).same h₀.closed hk')) n
  | none =>
    obtain ⟨sccs, h1, h2, h3⟩ := order_of h₀ hb horder
    have st : State eff U₀ kinds U₀ (List.replicate kinds.length none) := by
      refine ⟨h₀, fun _ _ h => h, by simp, fun j r hr => ?_⟩
      simp [List.getElem?_replicate] at hr
    obtain ⟨U', ρ', h4, st', h5⟩ := insertSccs_spec le h₀ hb sccs U₀ _ [] st h2 (by simp)
      (by intro j hj _; simp [hj])
    simp only [h1, Option.bind_some, h4, Option.map_some]
    refine ⟨U', _, rfl, st'.inv, st'.ext, by simp [st'.len], ?_⟩
    intro i r hr
    simp only [List.getElem?_map, Option.map_eq_some_iff] at hr
    obtain ⟨o, ho, rfl⟩ := hr
    have hil : i < kinds.length := by rw [← st'.len]; exact (List.getElem?_eq_some_iff.1 ho).1
    obtain ⟨r, hr⟩ := h5 i (by simpa using h3.mem_iff.2 (List.mem_range.2 hil))
    rw [ho] at hr; cases hr
    exact st'.res i r ho

end Ferlium.Intern
