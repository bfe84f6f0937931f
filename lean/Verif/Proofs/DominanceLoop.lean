import Verif.Proofs.Dominance

/-! The list-based computation of immediate dominators implements the abstract passes. -/
namespace Ferlium.Dominance

open Ferlium.Graph

variable {g : Gr} {entry : Nat} {idx : Nat → Nat}

/-- A vector of immediate dominators as a function. -/
def fn (l : List (Option Nat)) (x : Nat) : Option Nat := (l[x]?).join

theorem fn_eq_some {l : List (Option Nat)} {x p : Nat} : fn l x = some p ↔ l[x]? = some (some p) := by
  simp only [fn]
  cases h : l[x]? with
  | none => simp
  | some o => cases o <;> simp

theorem known_iff {l : List (Option Nat)} {x : Nat} : known l x = true ↔ (fn l x).isSome = true := by
  simp only [known, fn]
  cases h : l[x]? with
  | none => simp
  | some o => cases o <;> simp

theorem fn_set {l : List (Option Nat)} {n : Nat} (hn : n < l.length) (o : Option Nat) :
    fn (l.set n o) = Function.update (fn l) n o := by
  funext x
  simp only [fn, List.getElem?_set]
  by_cases h : n = x
  · subst h; simp [hn]
  · simp [h, Function.update_of_ne (Ne.symm h), fn]

/-- `index` holds the number of every reachable node. -/
def Indexed (g : Gr) (entry : Nat) (idx : Nat → Nat) (index : List (Option Nat)) : Prop :=
  ∀ x, Reach g entry x → index[x]? = some (some (idx x))

theorem walkUp_spec {l index : List (Option Nat)} (hT : TI g entry idx (fn l)) (hix : Indexed g entry idx index) {b : Nat}
    (hb : (fn l b).isSome = true) (h0 : idx entry = 0) : ∀ (k a : Nat), idx a = k → (fn l a).isSome = true →
      ∃ c, walkUp l index a b = some c ∧ (fn l c).isSome = true ∧ idx c ≤ idx b ∧ idx c ≤ idx a ∧
        (idx b < idx a → idx c < idx a) ∧ ∀ x, (Anc entry (fn l) a x ∧ Anc entry (fn l) b x) ↔ (Anc entry (fn l) c x ∧ Anc entry (fn l) b x) := by
  intro k
  induction k using Nat.strong_induction_on with
  | _ k ih =>
    intro a hk ha
    have h1 := hix a (hT.reach ha)
    have h2 := hix b (hT.reach hb)
    rw [walkUp]
    simp only [h1, h2]
    by_cases hlt : idx a > idx b
    · simp only [hlt, if_true]
      obtain ⟨p, hp⟩ := Option.isSome_iff_exists.1 ha
      have hp' := fn_eq_some.1 hp
      simp only [hp']
      have hne : a ≠ entry := by rintro rfl; omega
      obtain ⟨-, hpk, hpi⟩ := hT.par a p hp
      have hpi := hpi hne
      obtain ⟨c, c1, c2, c3, c4, c5, c6⟩ := ih (idx p) (by omega) p rfl hpk
      refine ⟨c, c1, c2, c3, by omega, fun _ => by omega, ?_⟩
      intro x
      rw [← c6 x]
      constructor
      · rintro ⟨e1, e2⟩
        rcases anc_cases e1 with rfl | ⟨q, -, hq, e⟩
        · have := hT.anc_idx e2; omega
        · rw [hp] at hq; cases hq; exact ⟨e, e2⟩
      · rintro ⟨e1, e2⟩
        exact ⟨anc_head hne hp e1, e2⟩
    · simp only [hlt, if_false]
      exact ⟨a, rfl, ha, by omega, le_refl _, fun h => h.elim, fun x => Iff.rfl⟩

theorem intersect_spec {l index : List (Option Nat)} (hN : Numbering g entry idx) (hT : TI g entry idx (fn l))
    (hix : Indexed g entry idx index) : ∀ (k a b : Nat), idx a + idx b = k → (fn l a).isSome = true → (fn l b).isSome = true →
      ∃ c, intersectPaths l index a b = some c ∧ (fn l c).isSome = true ∧
        ∀ x, Anc entry (fn l) c x ↔ (Anc entry (fn l) a x ∧ Anc entry (fn l) b x) := by
  intro k
  induction k using Nat.strong_induction_on with
  | _ k ih =>
    intro a b hk ha hb
    rw [intersectPaths]
    by_cases hab : a = b
    · subst hab; simp only [if_true]
      exact ⟨a, rfl, ha, fun x => by tauto⟩
    · simp only [hab, if_false]
      have hne : idx a ≠ idx b := fun h => hab (hN.inj a b (hT.reach ha) (hT.reach hb) h)
      obtain ⟨a', a1, a2, a3, a4, a5, a6⟩ := walkUp_spec hT hix hb hN.zero _ a rfl ha
      obtain ⟨b', b1, b2, b3, b4, b5, b6⟩ := walkUp_spec hT hix a2 hN.zero _ b rfl hb
      simp only [a1, b1, Option.bind_eq_bind, Option.bind_some]
      obtain ⟨c, c1, c2, c3⟩ := ih (idx a' + idx b') (by
        by_cases hlt : idx b < idx a
        · have := a5 hlt; omega
        · have := b5 (by omega); omega) a' b' rfl a2 b2
      refine ⟨c, c1, c2, ?_⟩
      intro x
      rw [c3 x, a6 x, and_comm (a := Anc entry (fn l) a' x) (b := Anc entry (fn l) b x), b6 x, and_comm]

/-- `preds` lists the predecessors of every node. -/
def PredsOf (g : Gr) (preds : List (List Nat)) : Prop :=
  preds.length = g.length ∧ ∀ n l, preds[n]? = some l → ∀ p, p ∈ l ↔ Edge g p n

theorem newDominator_spec {preds : List (List Nat)} {l index : List (Option Nat)} (hN : Numbering g entry idx)
    (hp : PredsOf g preds) (hT : TI g entry idx (fn l)) (hix : Indexed g entry idx index) {n f : Nat} (hn : n < g.length)
    (hf : Edge g f n) (hfk : (fn l f).isSome = true) :
    ∃ d, newDominator preds index l n = some d ∧ (fn l d).isSome = true ∧ Meet g entry (fn l) n d := by
  obtain ⟨ps, hps⟩ : ∃ ps, preds[n]? = some ps := ⟨_, List.getElem?_eq_getElem (by rw [hp.1]; exact hn)⟩
  have hmem := hp.2 n ps hps
  have hfm : f ∈ ps.filter (known l) := List.mem_filter.2 ⟨(hmem f).2 hf, known_iff.2 hfk⟩
  simp only [newDominator, hps]
  cases hfl : ps.filter (known l) with
  | nil => rw [hfl] at hfm; simp at hfm
  | cons p rest =>
    simp only
    have hk : ∀ x ∈ p :: rest, (fn l x).isSome = true := by
      intro x hx
      rw [← hfl] at hx
      exact known_iff.1 (List.mem_filter.1 hx).2
    obtain ⟨d, h1, h2, h3⟩ := foldlM_inv (f := fun d p => intersectPaths l index p d)
      (fun pre d => (fn l d).isSome = true ∧ ∀ x, Anc entry (fn l) d x ↔ ∀ q ∈ p :: pre, Anc entry (fn l) q x)
      (l := rest) (init := p) ⟨hk p (by simp), by simp⟩ (by
        intro pre x post d hl ⟨q1, q2⟩
        obtain ⟨c, c1, c2, c3⟩ := intersect_spec hN hT hix _ x d rfl (hk x (by rw [hl]; simp)) q1
        refine ⟨c, c1, c2, ?_⟩
        intro y
        rw [c3 y, q2 y]
        simp only [List.mem_cons, List.mem_append, List.not_mem_nil, or_false]
        constructor
        · rintro ⟨e1, e2⟩ q (rfl | hq | rfl)
          · exact e2 _ (Or.inl rfl)
          · exact e2 _ (Or.inr hq)
          · exact e1
        · intro e
          exact ⟨e x (Or.inr (Or.inr rfl)), fun q hq => e q (by tauto)⟩)
    refine ⟨d, h1, h2, ?_⟩
    intro a
    rw [h3 a, ← hfl]
    constructor
    · intro h q hq hqk
      exact h q (List.mem_filter.2 ⟨(hmem q).2 hq, known_iff.2 hqk⟩)
    · intro h q hq
      obtain ⟨h4, h5⟩ := List.mem_filter.1 hq
      exact h q ((hmem q).1 h4) (known_iff.1 h5)

/-- The list of nodes a pass goes through, with the numbering. -/
structure Order (g : Gr) (entry : Nat) (idx : Nat → Nat) (rpo : List Nat) : Prop where
  mem : ∀ v, v ∈ rpo ↔ Reach g entry v
  head : rpo.head? = some entry
  at' : ∀ (i : Nat) v, rpo[i]? = some v → idx v = i

theorem pass_spec {preds : List (List Nat)} {index : List (Option Nat)} {rpo : List Nat} (hg : WF g) (hent : entry < g.length)
    (hN : Numbering g entry idx) (hO : Order g entry idx rpo) (hp : PredsOf g preds) (hix : Indexed g entry idx index)
    {P : List (Option Nat)} (hlen : P.length = g.length) (hT : TI g entry idx (fn P)) (hK : Keeps g entry (fn P)) :
    ∃ s, (rpo.drop 1).foldlM (init := (P, false)) (passStep preds index) = some s ∧ s.1.length = g.length ∧
      PassOK g entry idx (fn P) (fn s.1) ∧ (s.2 = false → s.1 = P) ∧
      (s.2 = true → ∃ n, Reach g entry n ∧ fn s.1 n ≠ fn P n) := by
  obtain ⟨t, ht⟩ : ∃ t, rpo = entry :: t := by
    cases h : rpo with
    | nil => rw [h] at hO; simpa using hO.head
    | cons a t => have := hO.head; rw [h] at this; simp at this; exact ⟨t, by rw [this]⟩
  obtain ⟨s, h1, h2, h3, h4, h5⟩ := foldlM_inv (f := passStep preds index)
    (fun pre s => s.1.length = g.length ∧ PassInv g entry idx (fn P) (pre.length + 1) (fn s.1) ∧ (s.2 = false → s.1 = P) ∧
      (s.2 = true → ∃ n, Reach g entry n ∧ idx n < pre.length + 1 ∧ fn s.1 n ≠ fn P n))
    (l := rpo.drop 1) (init := (P, false)) (by
      refine ⟨hlen, ⟨hT, hK, ?_, fun x _ => rfl, ?_⟩, fun _ => rfl, by simp⟩
      · intro x hx hlt
        have : x = entry := hN.inj x entry hx (reach_refl _ _) (by rw [hN.zero]; simp at hlt; exact hlt)
        subst this; simp [hT.root]
      · intro n hn hne hlt
        exact absurd (hN.inj n entry hn (reach_refl _ _) (by rw [hN.zero]; simp at hlt; exact hlt)) hne) (by
      intro pre n post s hl ⟨q1, q2, q3, q4⟩
      have hidx : idx n = pre.length + 1 := by
        apply hO.at'
        rw [ht] at hl ⊢
        simp only [List.drop_succ_cons, List.drop_zero] at hl
        rw [hl]; simp
      have hR : Reach g entry n := (hO.mem n).1 (List.mem_of_mem_drop (i := 1) (by rw [hl]; simp))
      have hne : n ≠ entry := by rintro rfl; rw [hN.zero] at hidx; omega
      have hnl := reach_lt hg hent hR
      rw [← hidx] at q2
      obtain ⟨f, hfR, hf, hfi⟩ := hN.fwd n hR hne
      obtain ⟨d, d1, d2, d3⟩ := newDominator_spec hN hp q2.tree hix hnl hf (q2.known f hfR hfi)
      have hstep := pass_step hN q2 hR hne d2 d3
      obtain ⟨old, hold⟩ : ∃ o, s.1[n]? = some o := ⟨_, List.getElem?_eq_getElem (by rw [q1]; exact hnl)⟩
      have hPn : fn s.1 n = fn P n := q2.same n (fun h => by omega)
      have hfold : fn s.1 n = old := by simp [fn, hold]
      by_cases hc : old = some d
      · refine ⟨s, by simp [passStep, d1, hold, hc], q1, ?_, q3, ?_⟩
        · rw [List.length_append, List.length_singleton, ← hidx]
          have : Function.update (fn s.1) n (some d) = fn s.1 := by
            rw [Function.update_eq_self_iff, hfold, hc]
          rw [this] at hstep; exact hstep
        · intro h
          obtain ⟨m, m1, m2, m3⟩ := q4 h
          exact ⟨m, m1, by simp; omega, m3⟩
      · refine ⟨(s.1.set n (some d), true), by simp [passStep, d1, hold, hc], by simp [q1], ?_, by simp, ?_⟩
        · rw [List.length_append, List.length_singleton, ← hidx]
          show PassInv g entry idx (fn P) (idx n + 1) (fn (s.1.set n (some d)))
          rw [fn_set (by rw [q1]; exact hnl)]
          exact hstep
        · intro _
          refine ⟨n, hR, by simp [hidx], ?_⟩
          show fn (s.1.set n (some d)) n ≠ _
          rw [fn_set (by rw [q1]; exact hnl), Function.update_self, ← hPn, hfold]
          exact Ne.symm hc)
  have hlt : ∀ x, Reach g entry x → idx x < (rpo.drop 1).length + 1 := by
    intro x hx
    obtain ⟨i, hi, rfl⟩ := List.getElem_of_mem ((hO.mem x).2 hx)
    rw [hO.at' i _ (List.getElem?_eq_getElem hi)]
    simp; omega
  refine ⟨s, h1, h2, ⟨h3.tree, h3.keeps, fun x hx => h3.known x hx (hlt x hx), fun x hx => h3.same x (fun h => hx h.1),
    fun n hn hne => h3.meet n hn hne (hlt n hn)⟩, h4, ?_⟩
  intro h
  obtain ⟨n, n1, -, n3⟩ := h5 h
  exact ⟨n, n1, n3⟩

/-- The loop ends with the dominator tree. -/
def DomTree (g : Gr) (entry : Nat) (idx : Nat → Nat) (I : List (Option Nat)) : Prop :=
  I.length = g.length ∧ PassOK g entry idx (fn I) (fn I)

theorem domLoop_from {preds : List (List Nat)} {index : List (Option Nat)} {rpo : List Nat} (hg : WF g) (hent : entry < g.length)
    (hN : Numbering g entry idx) (hO : Order g entry idx rpo) (hp : PredsOf g preds) (hix : Indexed g entry idx index) {K : Nat}
    (hK : ∀ n a, n < g.length → a < g.length → ¬ DomW g entry n a → ∃ S, BWalk g entry idx n K S ∧ a ∉ S) :
    ∀ (m b : Nat) (P : List (Option Nat)), b + m = K → P.length = g.length → TI g entry idx (fn P) → Keeps g entry (fn P) →
      (∀ x, Reach g entry x → (fn P x).isSome = true) → Covers g entry idx b (fn P) →
      ∃ I, domLoop preds index rpo P = some I ∧ DomTree g entry idx I := by
  intro m
  induction m with
  | zero =>
    intro b P hb hlen hT hKe hkn hC
    obtain ⟨s, h1, h2, h3, h4, h5⟩ := pass_spec hg hent hN hO hp hix hlen hT hKe
    rw [domLoop]
    simp only [h1, Option.bind_eq_bind, Option.bind_some]
    cases hs : s.2 with
    | false => rw [h4 hs] at h3 h2 ⊢; simp only [Bool.false_eq_true, if_false]; exact ⟨P, rfl, h2, h3⟩
    | true =>
      exfalso
      obtain ⟨n, n1, n2⟩ := h5 hs
      have hC' : Covers g entry idx (b + 1) (fn s.1) :=
        covers_succ hN h3 (b + 1) (by rintro b' e; cases e; exact ⟨hT, hkn, hC⟩)
      apply n2
      refine tree_unique hN h3.tree hT h3.known hkn ?_ n1
      intro x a hx
      rw [covers_exact hg hent hK h3.tree h3.keeps h3.known (by omega) hC' hx a,
        covers_exact hg hent hK hT hKe hkn (by omega) hC hx a]
  | succ m ih =>
    intro b P hb hlen hT hKe hkn hC
    obtain ⟨s, h1, h2, h3, h4, h5⟩ := pass_spec hg hent hN hO hp hix hlen hT hKe
    rw [domLoop]
    simp only [h1, Option.bind_eq_bind, Option.bind_some]
    cases hs : s.2 with
    | false => rw [h4 hs] at h3 h2 ⊢; simp only [Bool.false_eq_true, if_false]; exact ⟨P, rfl, h2, h3⟩
    | true =>
      simp only [if_true]
      exact ih (b + 1) s.1 (by omega) h2 h3.tree h3.keeps h3.known
        (covers_succ hN h3 (b + 1) (by rintro b' e; cases e; exact ⟨hT, hkn, hC⟩))

theorem domLoop_spec {preds : List (List Nat)} {index : List (Option Nat)} {rpo : List Nat} (hg : WF g) (hent : entry < g.length)
    (hN : Numbering g entry idx) (hO : Order g entry idx rpo) (hp : PredsOf g preds) (hix : Indexed g entry idx index) :
    ∃ I, domLoop preds index rpo ((List.replicate g.length none).set entry (some entry)) = some I ∧ DomTree g entry idx I := by
  have hfn : fn ((List.replicate g.length none).set entry (some entry)) = Function.update (fun _ => none) entry (some entry) := by
    rw [fn_set (by simpa using hent)]
    congr 1
    funext x
    simp only [fn, List.getElem?_replicate]
    split <;> rfl
  have hT : TI g entry idx (fn ((List.replicate g.length none).set entry (some entry))) := by
    rw [hfn]
    refine ⟨by simp, ?_⟩
    intro n p h
    by_cases hn : n = entry
    · subst hn; rw [Function.update_self] at h; cases h
      exact ⟨reach_refl _ _, by simp, fun h => absurd rfl h⟩
    · rw [Function.update_of_ne hn] at h; simp at h
  have hKe : Keeps g entry (fn ((List.replicate g.length none).set entry (some entry))) := by
    rw [hfn]
    intro n p hn h
    rw [Function.update_of_ne hn] at h; simp at h
  obtain ⟨K, hK⟩ := exists_bound g entry idx
  obtain ⟨s, h1, h2, h3, h4, h5⟩ := pass_spec hg hent hN hO hp hix (by simp) hT hKe
  rw [domLoop]
  simp only [h1, Option.bind_eq_bind, Option.bind_some]
  cases hs : s.2 with
  | false => rw [← h4 hs] at h3; simp only [Bool.false_eq_true, if_false]; exact ⟨_, rfl, h2, h3⟩
  | true =>
    simp only [if_true]
    exact domLoop_from hg hent hN hO hp hix hK K 0 s.1 (by omega) h2 h3.tree h3.keeps h3.known
      (covers_succ hN h3 0 (by intro b' e; omega))

end Ferlium.Dominance
