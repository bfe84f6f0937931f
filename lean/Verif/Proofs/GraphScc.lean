import Verif.Proofs.Graph

/-! Tarjan's algorithm. -/
namespace Ferlium.Graph

/-- A fold that cannot fail keeps an invariant indexed by the elements already processed. -/
theorem foldlM_inv {α β : Type} {f : β → α → Option β} (P : List α → β → Prop) {l : List α} {init : β}
    (h0 : P [] init)
    (hstep : ∀ pre x post s, l = pre ++ x :: post → P pre s → ∃ s', f s x = some s' ∧ P (pre ++ [x]) s') :
    ∃ s, l.foldlM (init := init) f = some s ∧ P l s := by
  suffices h : ∀ (rest pre : List α) (s : β), l = pre ++ rest → P pre s →
      ∃ s', rest.foldlM (init := s) f = some s' ∧ P l s' from h l [] init rfl h0
  intro rest
  induction rest with
  | nil => intro pre s hl hp; simp at hl; subst hl; exact ⟨s, rfl, hp⟩
  | cons x rest ih =>
    intro pre s hl hp
    obtain ⟨s', h1, h2⟩ := hstep pre x rest s hl hp
    obtain ⟨s'', h3, h4⟩ := ih (pre ++ [x]) s' (by simp [hl]) h2
    exact ⟨s'', by simp [List.foldlM_cons, h1, h3], h4⟩

def Ixd (t : Tarjan) (v : Nat) : Prop := ∃ i, t.indices[v]? = some (some i)
def ix (t : Tarjan) (v : Nat) : Nat := ((t.indices[v]?).join).getD 0

theorem ix_eq {t : Tarjan} {v i : Nat} (h : t.indices[v]? = some (some i)) : ix t v = i := by simp [ix, h]

/-- Mutual reachability. -/
def Mutual (g : Gr) (u v : Nat) : Prop := Reach g u v ∧ Reach g v u

structure TInv (g : Gr) (gray : List Nat) (t : Tarjan) : Prop where
  lenI : t.indices.length = g.length
  lenL : t.lowLink.length = g.length
  lenS : t.inStack.length = g.length
  inSt : ∀ v, t.inStack[v]? = some true ↔ v ∈ t.stack
  nodup : (t.stack ++ t.sccs.flatten).Nodup
  ixd : ∀ v, Ixd t v ↔ v ∈ t.stack ++ t.sccs.flatten
  ixLt : ∀ v, Ixd t v → ix t v < t.index
  sorted : t.stack.Pairwise (fun a b => ix t b < ix t a)
  graySub : ∀ x ∈ gray, x ∈ t.stack
  fromGray : ∀ x ∈ gray, ∀ y ∈ t.stack, ix t x ≤ ix t y → Reach g x y
  toGray : ∀ y ∈ t.stack, ∃ x ∈ gray, ix t x ≤ ix t y ∧ Reach g y x
  black : ∀ u, Ixd t u → u ∉ gray → ∀ w, Edge g u w → Ixd t w
  comp : ∀ c ∈ t.sccs, c ≠ [] ∧ ∀ u ∈ c, ∀ w, w ∈ c ↔ Mutual g u w
  closed : ∀ A c B, t.sccs = A ++ c :: B → ∀ u ∈ c, ∀ w, Edge g u w → w ∈ c ∨ w ∈ A.flatten

theorem TInv.lt {g : Gr} {gray : List Nat} {t : Tarjan} (h : TInv g gray t) {v : Nat} (hv : Ixd t v) : v < g.length := by
  obtain ⟨i, hi⟩ := hv
  rw [← h.lenI]; exact (List.getElem?_eq_some_iff.1 hi).1

theorem TInv.closedReach {g : Gr} {gray : List Nat} {t : Tarjan} (h : TInv g gray t) {u w : Nat}
    (hu : u ∈ t.sccs.flatten) (hr : Reach g u w) : w ∈ t.sccs.flatten := by
  induction hr with
  | refl => exact hu
  | tail _ he ih =>
    obtain ⟨c, hc, hx⟩ := List.mem_flatten.1 ih
    obtain ⟨A, B, hAB⟩ := List.append_of_mem hc
    rcases h.closed A c B hAB _ hx _ he with h1 | h1
    · exact List.mem_flatten.2 ⟨c, hc, h1⟩
    · rw [hAB]; simp only [List.flatten_append, List.mem_append]; exact Or.inl h1

/-- Number of nodes without an index. -/
def todo (g : Gr) (t : Tarjan) : Nat := g.length - (t.stack.length + t.sccs.flatten.length)

theorem TInv.todo_pos {g : Gr} {gray : List Nat} {t : Tarjan} (h : TInv g gray t) {v : Nat} (hv : v < g.length)
    (hn : ¬ Ixd t v) : t.stack.length + t.sccs.flatten.length + 1 ≤ g.length := by
  have hnd : (v :: (t.stack ++ t.sccs.flatten)).Nodup :=
    List.nodup_cons.2 ⟨fun hc => hn ((h.ixd v).2 hc), h.nodup⟩
  have hsub : (v :: (t.stack ++ t.sccs.flatten)) ⊆ List.range g.length := by
    intro x hx
    rcases List.mem_cons.1 hx with rfl | hx
    · exact List.mem_range.2 hv
    · exact List.mem_range.2 (h.lt ((h.ixd x).2 hx))
  have := (hnd.subperm hsub).length_le
  simpa using this

theorem popComponent_spec (v : Nat) (T rest : List Nat) (hv : v ∉ T) (ins : List Bool) :
    ∃ ins', popComponent v (T ++ v :: rest) ins = (T ++ [v], rest, ins') ∧ ins'.length = ins.length ∧
      ∀ u, ins'[u]? = some true ↔ (ins[u]? = some true ∧ u ∉ T ∧ u ≠ v) := by
  induction T generalizing ins with
  | nil =>
    refine ⟨ins.set v false, by simp [popComponent], by simp, ?_⟩
    intro u
    rw [List.getElem?_set]
    by_cases hu : v = u
    · subst hu; simp
    · simp [hu, Ne.symm hu]
  | cons a T ih =>
    simp only [List.mem_cons, not_or] at hv
    obtain ⟨ins', h1, h2, h3⟩ := ih hv.2 (ins.set a false)
    refine ⟨ins', by simp [popComponent, h1, Ne.symm hv.1], by simp [h2], ?_⟩
    intro u
    rw [h3, List.getElem?_set]
    by_cases hu : a = u
    · subst hu; simp
    · simp [hu, Ne.symm hu]

/-- What a call on the unvisited node `v` leaves behind. -/
structure SPost (g : Gr) (gray : List Nat) (v : Nat) (t t' : Tarjan) : Prop where
  inv : TInv g gray t'
  extI : ∀ u, Ixd t u → t'.indices[u]? = t.indices[u]?
  extL : ∀ u, Ixd t u → t'.lowLink[u]? = t.lowLink[u]?
  mono : t.index < t'.index
  vIx : t'.indices[v]? = some (some t.index)
  scc : ∃ new, t'.sccs = t.sccs ++ new
  low : ∃ T lv, t'.stack = T ++ t.stack ∧ (∀ x ∈ T, t.index ≤ ix t' x) ∧ t'.lowLink[v]? = some lv ∧
    ((T = [] ∧ lv = t.index) ∨ (∃ w ∈ t.stack, ix t w = lv ∧ Reach g v w)) ∧
    ∀ x ∈ T, ∀ b ∈ t.stack, Edge g x b → lv ≤ ix t b

/-- The invariant of the loop over the neighbours. -/
structure LInv (g : Gr) (gray : List Nat) (v : Nat) (t : Tarjan) (pre : List Nat) (s : Tarjan) : Prop where
  inv : TInv g (v :: gray) s
  extI : ∀ u, Ixd t u → s.indices[u]? = t.indices[u]?
  extL : ∀ u, Ixd t u → s.lowLink[u]? = t.lowLink[u]?
  mono : t.index < s.index
  vIx : s.indices[v]? = some (some t.index)
  scc : ∃ new, s.sccs = t.sccs ++ new
  low : ∃ T lv, s.stack = T ++ v :: t.stack ∧ (∀ x ∈ T, t.index < ix s x) ∧ s.lowLink[v]? = some lv ∧
    lv ≤ t.index ∧ (∃ w ∈ s.stack, ix s w = lv ∧ Reach g v w) ∧
    (∀ x ∈ T, ∀ b ∈ t.stack, Edge g x b → lv ≤ ix t b) ∧
    ∀ n ∈ pre, Ixd s n ∧ (n ∈ t.stack → lv ≤ ix t n)

theorem ix_congr {t t' : Tarjan} {u : Nat} (h : t'.indices[u]? = t.indices[u]?) : ix t' u = ix t u := by simp [ix, h]

theorem ixd_congr {t t' : Tarjan} {u : Nat} (h : t'.indices[u]? = t.indices[u]?) : Ixd t' u ↔ Ixd t u := by simp [Ixd, h]

/-- The invariant does not look at the low links. -/
theorem TInv.setLow {g : Gr} {gray : List Nat} {t : Tarjan} (h : TInv g gray t) (v a : Nat) :
    TInv g gray { t with lowLink := t.lowLink.set v a } := by
  obtain ⟨h1, h2, h3, h4, h5, h6, h7, h8, h9, h10, h11, h12, h13, h14⟩ := h
  exact ⟨h1, by simp [h2], h3, h4, h5, h6, h7, h8, h9, h10, h11, h12, h13, h14⟩

theorem enter_inv {g : Gr} {gray : List Nat} {v : Nat} {t : Tarjan} (h : TInv g gray t)
    (hv : t.indices[v]? = some none) (hr : ∀ x ∈ gray, Reach g x v) :
    LInv g gray v t [] { t with
      indices := t.indices.set v (some t.index)
      lowLink := t.lowLink.set v t.index
      index := t.index + 1
      stack := v :: t.stack
      inStack := t.inStack.set v true } := by
  have hlt : v < t.indices.length := (List.getElem?_eq_some_iff.1 hv).1
  have hnv : ¬ Ixd t v := by rintro ⟨i, hi⟩; rw [hv] at hi; simp at hi
  have hnm : v ∉ t.stack ++ t.sccs.flatten := fun hc => hnv ((h.ixd v).2 hc)
  have hother : ∀ u, u ≠ v → (t.indices.set v (some t.index))[u]? = t.indices[u]? := by
    intro u hu; rw [List.getElem?_set]; simp [Ne.symm hu]
  have hself : (t.indices.set v (some t.index))[v]? = some (some t.index) := by
    rw [List.getElem?_set]; simp [hlt]
  have hne : ∀ u, Ixd t u → u ≠ v := by rintro u hu rfl; exact hnv hu
  have hst : ∀ u ∈ t.stack, Ixd t u := fun u hu => (h.ixd u).2 (by simp [hu])
  generalize hs : ({ t with
      indices := t.indices.set v (some t.index)
      lowLink := t.lowLink.set v t.index
      index := t.index + 1
      stack := v :: t.stack
      inStack := t.inStack.set v true } : Tarjan) = s
  have hsI : s.indices = t.indices.set v (some t.index) := by rw [← hs]
  have hixo : ∀ u, u ≠ v → ix s u = ix t u := fun u hu => ix_congr (by rw [hsI]; exact hother u hu)
  have hixdo : ∀ u, u ≠ v → (Ixd s u ↔ Ixd t u) := fun u hu => ixd_congr (by rw [hsI]; exact hother u hu)
  have hixv : ix s v = t.index := ix_eq (by rw [hsI]; exact hself)
  have hixdv : Ixd s v := ⟨_, by rw [hsI]; exact hself⟩
  have hsS : s.stack = v :: t.stack := by rw [← hs]
  have hsC : s.sccs = t.sccs := by rw [← hs]
  have hsX : s.index = t.index + 1 := by rw [← hs]
  have hsL : s.lowLink = t.lowLink.set v t.index := by rw [← hs]
  have hsT : s.inStack = t.inStack.set v true := by rw [← hs]
  have hltG : v < g.length := by rw [← h.lenI]; exact hlt
  have hmemO : ∀ y ∈ t.stack, ix s y = ix t y ∧ ix t y < t.index := fun y hy =>
    ⟨hixo y (hne y (hst y hy)), h.ixLt y (hst y hy)⟩
  refine ⟨⟨?_, ?_, ?_, ?_, ?_, ?_, ?_, ?_, ?_, ?_, ?_, ?_, ?_, ?_⟩, ?_, ?_, ?_, ?_, ⟨[], by simp [hsC]⟩, ?_⟩
  · rw [hsI]; simp [h.lenI]
  · rw [hsL]; simp [h.lenL]
  · rw [hsT]; simp [h.lenS]
  · intro u
    rw [hsT, hsS, List.getElem?_set]
    by_cases hu : v = u
    · subst hu; simp [h.lenS, hltG]
    · simp only [hu, if_false, h.inSt u, List.mem_cons, Ne.symm hu, false_or]
  · rw [hsS, hsC]; exact List.nodup_cons.2 ⟨hnm, h.nodup⟩
  · intro u
    rw [hsS, hsC]
    by_cases hu : u = v
    · subst hu; simp [hixdv]
    · rw [hixdo u hu, h.ixd u]; simp [hu]
  · intro u hu
    rw [hsX]
    by_cases huv : u = v
    · subst huv; rw [hixv]; omega
    · rw [hixo u huv]; have := h.ixLt u ((hixdo u huv).1 hu); omega
  · rw [hsS, List.pairwise_cons]
    constructor
    · intro y hy
      have := hmemO y hy
      rw [this.1, hixv]; exact this.2
    · refine h.sorted.imp_of_mem ?_
      intro a b ha hb hab
      rw [(hmemO a ha).1, (hmemO b hb).1]; exact hab
  · intro x hx
    rw [hsS]
    rcases List.mem_cons.1 hx with rfl | hx
    · simp
    · simp [h.graySub x hx]
  · intro x hx y hy hle
    rw [hsS] at hy
    rcases List.mem_cons.1 hx with hxv | hx' <;> rcases List.mem_cons.1 hy with hyv | hy'
    · rw [hxv, hyv]; exact reach_refl _ _
    · have := hmemO y hy'; rw [hxv] at hle; omega
    · rw [hyv]; exact hr x hx'
    · have h1 := hmemO x (h.graySub x hx'); have h2 := hmemO y hy'
      exact h.fromGray x hx' y hy' (by omega)
  · intro y hy
    rw [hsS] at hy
    rcases List.mem_cons.1 hy with rfl | hy
    · exact ⟨y, by simp, le_refl _, reach_refl _ _⟩
    · obtain ⟨x, hx, h1, h2⟩ := h.toGray y hy
      have h3 := hmemO x (h.graySub x hx); have h4 := hmemO y hy
      exact ⟨x, by simp [hx], by omega, h2⟩
  · intro u hu hg w hw
    simp only [List.mem_cons, not_or] at hg
    have := h.black u ((hixdo u hg.1).1 hu) hg.2 w hw
    rw [hixdo w (hne w this)]; exact this
  · rw [hsC]; exact h.comp
  · rw [hsC]; exact h.closed
  · intro u hu; rw [hsI]; exact hother u (hne u hu)
  · intro u hu; rw [hsL, List.getElem?_set]; simp [Ne.symm (hne u hu)]
  · rw [hsX]; omega
  · rw [hsI]; exact hself
  · refine ⟨[], t.index, by rw [hsS]; rfl, by simp, ?_, le_refl _, ⟨v, by simp [hsS], hixv, reach_refl _ _⟩, by simp, by simp⟩
    rw [hsL, List.getElem?_set]; simp [h.lenL, hltG]

/-- The body of the loop over the neighbours, graph.rs:121-141. -/
def tarjanStep (g : Gr) (node : Nat) (t : Tarjan) (neighbor : Nat) : Option Tarjan :=
  match t.indices[neighbor]? with
  | none => none
  | some none =>
    strongConnect g neighbor t >>= fun t =>
      match t.lowLink[node]?, t.lowLink[neighbor]? with
      | some a, some b => some { t with lowLink := t.lowLink.set node (min a b) }
      | _, _ => none
  | some (some i) =>
    match t.inStack[neighbor]? with
    | some true =>
      match t.lowLink[node]? with
      | some a => some { t with lowLink := t.lowLink.set node (min a i) }
      | none => none
    | some false => some t
    | none => none

theorem step_inv {g : Gr} (hg : WF g) {gray : List Nat} {v : Nat} {t s : Tarjan} {pre : List Nat} {n : Nat}
    (h0 : TInv g gray t) (hv : t.indices[v]? = some none)
    (hr : ∀ x ∈ gray, Reach g x v) (hl : LInv g gray v t pre s) (he : Edge g v n)
    (ih : s.indices[n]? = some none → (∀ x ∈ v :: gray, Reach g x n) →
      ∃ s', strongConnect g n s = some s' ∧ SPost g (v :: gray) n s s') :
    ∃ s', tarjanStep g v s n = some s' ∧ LInv g gray v t (pre ++ [n]) s' := by
  have hn := hg _ _ he
  obtain ⟨T, lv, l1, l2, l3, l4, ⟨w, lw1, lw2, lw3⟩, l5, l6⟩ := hl.low
  have hvs : Ixd s v := ⟨_, hl.vIx⟩
  have hnv : ¬ Ixd t v := by rintro ⟨i, hi⟩; rw [hv] at hi; simp at hi
  have hst : ∀ u ∈ t.stack, Ixd t u := fun u hu => (h0.ixd u).2 (by simp [hu])
  have hts : ∀ u, Ixd t u → Ixd s u := fun u hu => (ixd_congr (hl.extI u hu)).2 hu
  have hixts : ∀ u ∈ t.stack, ix s u = ix t u := fun u hu => ix_congr (hl.extI u (hst u hu))
  have hvlt : v < s.lowLink.length := (List.getElem?_eq_some_iff.1 l3).1
  cases hi : s.indices[n]? with
  | none => rw [List.getElem?_eq_none_iff, hl.inv.lenI] at hi; omega
  | some o =>
    cases o with
    | none =>
      obtain ⟨s', hs', hp⟩ := ih hi (by
        intro x hx
        rcases List.mem_cons.1 hx with rfl | hx
        · exact reach_edge he
        · exact reach_trans (hr x hx) (reach_edge he))
      obtain ⟨T', ln, p1, p2, p3, p4, p5⟩ := hp.low
      have hlv : s'.lowLink[v]? = some lv := by rw [hp.extL v hvs]; exact l3
      have hnn : ¬ Ixd s n := by rintro ⟨i, h⟩; rw [hi] at h; simp at h
      have hss : ∀ u ∈ s.stack, Ixd s u := fun u hu => (hl.inv.ixd u).2 (by simp [hu])
      have hixss : ∀ u ∈ s.stack, ix s' u = ix s u := fun u hu => ix_congr (hp.extI u (hss u hu))
      refine ⟨{ s' with lowLink := s'.lowLink.set v (min lv ln) }, ?_, ?_⟩
      · simp only [tarjanStep, hi, hs', Option.bind_eq_bind, Option.bind_some, hlv, p3]
      · refine ⟨hp.inv.setLow _ _, ?_, ?_, ?_, ?_, ?_, ?_⟩
        · intro u hu; show s'.indices[u]? = _; rw [hp.extI u (hts u hu), hl.extI u hu]
        · intro u hu
          have hne : v ≠ u := by rintro rfl; exact hnv hu
          show (s'.lowLink.set v (min lv ln))[u]? = _
          rw [List.getElem?_set]
          simp only [hne, if_false]
          rw [hp.extL u (hts u hu), hl.extL u hu]
        · have h1 := hl.mono; have h2 := hp.mono; show t.index < s'.index; omega
        · show s'.indices[v]? = _; rw [hp.extI v hvs]; exact hl.vIx
        · obtain ⟨n1, e1⟩ := hl.scc; obtain ⟨n2, e2⟩ := hp.scc
          exact ⟨n1 ++ n2, by show s'.sccs = _; rw [e2, e1]; simp⟩
        · refine ⟨T' ++ T, min lv ln, ?_, ?_, ?_, ?_, ?_, ?_, ?_⟩
          · show s'.stack = _; rw [p1, l1]; simp
          · intro x hx
            show t.index < ix s' x
            rcases List.mem_append.1 hx with hx | hx
            · have := p2 x hx; have := hl.mono; omega
            · rw [hixss x (by rw [l1]; simp [hx])]; exact l2 x hx
          · show (s'.lowLink.set v (min lv ln))[v]? = _
            rw [List.getElem?_set]
            have : v < s'.lowLink.length := (List.getElem?_eq_some_iff.1 hlv).1
            simp [this]
          · omega
          · show ∃ w ∈ s'.stack, ix s' w = min lv ln ∧ Reach g v w
            rcases p4 with ⟨q1, q2⟩ | ⟨w', q1, q2, q3⟩
            · refine ⟨w, by rw [p1]; simp [lw1], ?_, lw3⟩
              rw [hixss w lw1, lw2]; have := hl.mono; omega
            · by_cases hc : lv ≤ ln
              · exact ⟨w, by rw [p1]; simp [lw1], by rw [hixss w lw1, lw2]; omega, lw3⟩
              · exact ⟨w', by rw [p1]; simp [q1], by rw [hixss w' q1, q2]; omega, reach_trans (reach_edge he) q3⟩
          · intro x hx b hb hxb
            rcases List.mem_append.1 hx with hx | hx
            · have := p5 x hx b (by rw [l1]; simp [hb]) hxb
              rw [hixts b hb] at this; omega
            · have := l5 x hx b hb hxb; omega
          · intro m hm
            rcases List.mem_append.1 hm with hm | hm
            · obtain ⟨m1, m2⟩ := l6 m hm
              exact ⟨(ixd_congr (t := s) (hp.extI m m1)).2 m1, fun hc => by have := m2 hc; omega⟩
            · simp only [List.mem_singleton] at hm; subst hm
              exact ⟨⟨_, hp.vIx⟩, fun hc => absurd (hts _ (hst _ hc)) hnn⟩
    | some i =>
      have hnix : Ixd s n := ⟨i, hi⟩
      have hns : s.inStack[n]? ≠ none := by
        rw [Ne, List.getElem?_eq_none_iff, hl.inv.lenS]; omega
      cases hb : s.inStack[n]? with
      | none => exact absurd hb hns
      | some b =>
        cases b with
        | true =>
          have hmem := (hl.inv.inSt n).1 hb
          refine ⟨{ s with lowLink := s.lowLink.set v (min lv i) }, ?_, ?_⟩
          · simp only [tarjanStep, hi, hb, l3]
          · refine ⟨hl.inv.setLow _ _, hl.extI, ?_, hl.mono, hl.vIx, hl.scc, ?_⟩
            · intro u hu
              have hne : v ≠ u := by rintro rfl; exact hnv hu
              show (s.lowLink.set v (min lv i))[u]? = _
              rw [List.getElem?_set]
              simp only [hne, if_false]
              exact hl.extL u hu
            · refine ⟨T, min lv i, l1, l2, ?_, by omega, ?_, ?_, ?_⟩
              · show (s.lowLink.set v (min lv i))[v]? = _
                rw [List.getElem?_set]; simp [hvlt]
              · show ∃ w ∈ s.stack, ix s w = min lv i ∧ Reach g v w
                by_cases hc : lv ≤ i
                · exact ⟨w, lw1, by omega, lw3⟩
                · exact ⟨n, hmem, by rw [ix_eq hi]; omega, reach_edge he⟩
              · intro x hx b hb hxb; have := l5 x hx b hb hxb; omega
              · intro m hm
                show Ixd s m ∧ _
                rcases List.mem_append.1 hm with hm | hm
                · obtain ⟨m1, m2⟩ := l6 m hm
                  exact ⟨m1, fun hc => by have := m2 hc; omega⟩
                · simp only [List.mem_singleton] at hm; subst hm
                  refine ⟨hnix, fun hc => ?_⟩
                  rw [← hixts _ hc, ix_eq hi]; omega
        | false =>
          refine ⟨s, by simp only [tarjanStep, hi, hb], hl.inv, hl.extI, hl.extL, hl.mono, hl.vIx, hl.scc, ?_⟩
          refine ⟨T, lv, l1, l2, l3, l4, ⟨w, lw1, lw2, lw3⟩, l5, ?_⟩
          intro m hm
          rcases List.mem_append.1 hm with hm | hm
          · exact l6 m hm
          · simp only [List.mem_singleton] at hm; subst hm
            refine ⟨hnix, fun hc => ?_⟩
            have : m ∈ s.stack := by rw [l1]; simp [hc]
            rw [(hl.inv.inSt m).2 this] at hb; simp at hb

/-- The end of the call, graph.rs:144-156. -/
def tarjanFinish (node : Nat) (t : Tarjan) : Option Tarjan :=
  match t.lowLink[node]?, t.indices[node]? with
  | some low, some (some i) =>
    if low = i then
      let (scc, stack, inStack) := popComponent node t.stack t.inStack
      some { t with stack, inStack, sccs := t.sccs ++ [scc] }
    else some t
  | _, _ => none

theorem finish_inv {g : Gr} {gray : List Nat} {v : Nat} {t s : Tarjan} {pre : List Nat}
    (h0 : TInv g gray t) (hv : t.indices[v]? = some none)
    (hr : ∀ x ∈ gray, Reach g x v) (hl : LInv g gray v t pre s) (hpre : ∀ n, Edge g v n → n ∈ pre) :
    ∃ s', tarjanFinish v s = some s' ∧ SPost g gray v t s' := by
  obtain ⟨T, lv, l1, l2, l3, l4, ⟨w, lw1, lw2, lw3⟩, l5, l6⟩ := hl.low
  have hnv : ¬ Ixd t v := by rintro ⟨i, hi⟩; rw [hv] at hi; simp at hi
  have hst : ∀ u ∈ t.stack, Ixd t u := fun u hu => (h0.ixd u).2 (by simp [hu])
  have hixts : ∀ u ∈ t.stack, ix s u = ix t u := fun u hu => ix_congr (hl.extI u (hst u hu))
  have hltS : ∀ u ∈ t.stack, ix s u < t.index := fun u hu => by rw [hixts u hu]; exact h0.ixLt u (hst u hu)
  have hixv : ix s v = t.index := ix_eq hl.vIx
  have hsub : ∀ u ∈ t.stack, u ∈ s.stack := fun u hu => by rw [l1]; simp [hu]
  have hvg : v ∉ gray := fun hc => hnv (hst v (h0.graySub v hc))
  have hblack : ∀ u, Ixd s u → u ∉ gray → ∀ w, Edge g u w → Ixd s w := by
    intro u hu hug w hw
    by_cases huv : u = v
    · subst huv; exact (l6 w (hpre w hw)).1
    · exact hl.inv.black u hu (by simp [huv, hug]) w hw
  have hgsub : ∀ x ∈ gray, x ∈ v :: gray := fun x hx => by simp [hx]
  by_cases hlow : lv = t.index
  · -- the component is complete
    have hnd := hl.inv.nodup
    rw [l1] at hnd
    have hvT : v ∉ T := by
      intro hc
      rw [List.nodup_append, List.nodup_append] at hnd
      exact hnd.1.2.2 v hc v (by simp) rfl
    obtain ⟨ins', q1, q2, q3⟩ := popComponent_spec v T t.stack hvT s.inStack
    refine ⟨{ s with stack := t.stack, inStack := ins', sccs := s.sccs ++ [T ++ [v]] }, ?_, ?_⟩
    · simp only [tarjanFinish, l3, hl.vIx, hlow, if_true, l1, q1]
    have hperm : (t.stack ++ (s.sccs ++ [T ++ [v]]).flatten).Perm (s.stack ++ s.sccs.flatten) := by
      rw [l1]
      simp only [List.flatten_append, List.flatten_cons, List.flatten_nil, List.append_nil]
      have e : T ++ v :: t.stack = (T ++ [v]) ++ t.stack := by simp
      rw [e, List.append_assoc (T ++ [v])]
      refine List.Perm.trans ?_ List.perm_append_comm
      rw [List.append_assoc]
    -- every edge out of the component leads into it or into finished components
    have hout : ∀ x ∈ T ++ [v], ∀ b, Edge g x b → b ∈ T ++ [v] ∨ b ∈ s.sccs.flatten := by
      intro x hx b hxb
      have hxs : x ∈ s.stack := by rw [l1]; simp only [List.mem_append, List.mem_cons, List.mem_singleton] at hx ⊢; tauto
      have hxg : x ∉ gray := by
        intro hc
        have h1 := hltS x (h0.graySub x hc)
        rcases List.mem_append.1 hx with hx | hx
        · have := l2 x hx; omega
        · simp only [List.mem_singleton] at hx; subst hx; omega
      have hb := hblack x ((hl.inv.ixd x).2 (by simp [hxs])) hxg b hxb
      rw [hl.inv.ixd, l1] at hb
      simp only [List.mem_append, List.mem_cons] at hb
      rcases hb with (hb | hb | hb) | hb
      · simp [hb]
      · simp [hb]
      · exfalso
        have h1 := hltS b hb
        rw [hixts b hb] at h1
        rcases List.mem_append.1 hx with hx | hx
        · have := l5 x hx b hb hxb; omega
        · simp only [List.mem_singleton] at hx; subst hx
          have := (l6 b (hpre b hxb)).2 hb; omega
      · exact Or.inr hb
    have hvto : ∀ x ∈ T ++ [v], Reach g v x ∧ Reach g x v := by
      intro x hx
      have hxs : x ∈ s.stack := by rw [l1]; simp only [List.mem_append, List.mem_cons, List.mem_singleton] at hx ⊢; tauto
      have hge : t.index ≤ ix s x := by
        rcases List.mem_append.1 hx with hx | hx
        · have := l2 x hx; omega
        · simp only [List.mem_singleton] at hx; subst hx; omega
      refine ⟨hl.inv.fromGray v (by simp) x hxs (by omega), ?_⟩
      obtain ⟨y, hy, -, h2⟩ := hl.inv.toGray x hxs
      rcases List.mem_cons.1 hy with rfl | hy
      · exact h2
      · exact reach_trans h2 (hr y hy)
    have hdisj : ∀ x ∈ T ++ [v], x ∉ s.sccs.flatten := by
      intro x hx hc
      rw [List.nodup_append] at hnd
      refine hnd.2.2 x ?_ x hc rfl
      simp only [List.mem_append, List.mem_cons, List.mem_singleton] at hx ⊢; tauto
    refine ⟨⟨hl.inv.lenI, hl.inv.lenL, by show ins'.length = _; rw [q2]; exact hl.inv.lenS, ?_, ?_, ?_, hl.inv.ixLt, ?_, ?_, ?_, ?_,
      hblack, ?_, ?_⟩, hl.extI, hl.extL, hl.mono, hl.vIx, ?_, ?_⟩
    · intro u
      show ins'[u]? = some true ↔ u ∈ t.stack
      rw [q3, hl.inv.inSt, l1]
      constructor
      · rintro ⟨h1, h2, h3⟩
        simp only [List.mem_append, List.mem_cons] at h1; tauto
      · intro hu
        have h1 := hltS u hu
        refine ⟨by simp [hu], fun hc => ?_, ?_⟩
        · have := l2 u hc; omega
        · rintro rfl; omega
    · exact hperm.nodup_iff.2 hl.inv.nodup
    · intro u
      show Ixd s u ↔ u ∈ t.stack ++ (s.sccs ++ [T ++ [v]]).flatten
      rw [hperm.mem_iff]; exact hl.inv.ixd u
    · refine h0.sorted.imp_of_mem ?_
      intro a b ha hb hab
      show ix s b < ix s a
      rw [hixts a ha, hixts b hb]; exact hab
    · exact h0.graySub
    · intro x hx y hy hle
      exact hl.inv.fromGray x (hgsub x hx) y (hsub y hy) hle
    · intro y hy
      obtain ⟨x, hx, h1, h2⟩ := h0.toGray y hy
      refine ⟨x, hx, ?_, h2⟩
      show ix s x ≤ ix s y
      rw [hixts x (h0.graySub x hx), hixts y hy]; exact h1
    · intro c hc
      change c ∈ s.sccs ++ [T ++ [v]] at hc
      rcases List.mem_append.1 hc with hc | hc
      · exact hl.inv.comp c hc
      · simp only [List.mem_singleton] at hc; subst hc
        refine ⟨by simp, ?_⟩
        intro u hu w
        constructor
        · intro hw
          exact ⟨reach_trans (hvto u hu).2 (hvto w hw).1, reach_trans (hvto w hw).2 (hvto u hu).1⟩
        · rintro ⟨h1, h2⟩
          have hin : w ∈ T ++ [v] ∨ w ∈ s.sccs.flatten := by
            clear h2
            induction h1 with
            | refl => exact Or.inl hu
            | tail _ he ihx =>
              rcases ihx with ihx | ihx
              · exact hout _ ihx _ he
              · exact Or.inr (hl.inv.closedReach ihx (reach_edge he))
          rcases hin with h | h
          · exact h
          · exact absurd (hl.inv.closedReach h h2) (hdisj u hu)
    · intro A c B hAB u hu w huw
      change s.sccs ++ [T ++ [v]] = A ++ c :: B at hAB
      rcases append_singleton_eq hAB with ⟨rfl, rfl, rfl⟩ | ⟨B', rfl, hB⟩
      · exact hout u hu w huw
      · exact hl.inv.closed A c B' hB u hu w huw
    · obtain ⟨new, hnew⟩ := hl.scc
      exact ⟨new ++ [T ++ [v]], by show s.sccs ++ _ = _; rw [hnew]; simp⟩
    · exact ⟨[], lv, rfl, by simp, l3, Or.inl ⟨rfl, hlow⟩, by simp⟩
  · have hlt : lv < t.index := by omega
    have hwt : w ∈ t.stack := by
      rw [l1] at lw1
      simp only [List.mem_append, List.mem_cons] at lw1
      rcases lw1 with h | rfl | h
      · have := l2 w h; omega
      · omega
      · exact h
    refine ⟨s, by simp only [tarjanFinish, l3, hl.vIx, hlow, if_false], ?_⟩
    refine ⟨⟨hl.inv.lenI, hl.inv.lenL, hl.inv.lenS, hl.inv.inSt, hl.inv.nodup, hl.inv.ixd, hl.inv.ixLt, hl.inv.sorted,
      fun x hx => hl.inv.graySub x (hgsub x hx), fun x hx => hl.inv.fromGray x (hgsub x hx), ?_, hblack, hl.inv.comp,
      hl.inv.closed⟩, hl.extI, hl.extL, hl.mono, hl.vIx, hl.scc, ?_⟩
    · intro y hy
      obtain ⟨x, hx, h1, h2⟩ := hl.inv.toGray y hy
      rcases List.mem_cons.1 hx with rfl | hx
      · obtain ⟨x', hx', h3, h4⟩ := h0.toGray w hwt
        refine ⟨x', hx', ?_, reach_trans h2 (reach_trans lw3 h4)⟩
        rw [hixts x' (h0.graySub x' hx')]
        rw [hixts w hwt] at lw2
        omega
      · exact ⟨x, hx, h1, h2⟩
    · refine ⟨T ++ [v], lv, by rw [l1]; simp, ?_, l3, Or.inr ⟨w, hwt, by rw [← hixts w hwt]; exact lw2, lw3⟩, ?_⟩
      · intro x hx
        rcases List.mem_append.1 hx with hx | hx
        · have := l2 x hx; omega
        · simp only [List.mem_singleton] at hx; subst hx; omega
      · intro x hx b hb hxb
        rcases List.mem_append.1 hx with hx | hx
        · exact l5 x hx b hb hxb
        · simp only [List.mem_singleton] at hx; subst hx
          exact (l6 b (hpre b hxb)).2 hb

theorem strongConnect_eq (g : Gr) (node : Nat) (t : Tarjan) (neighbors : List Nat) (h : g[node]? = some neighbors) :
    strongConnect g node t =
      (neighbors.foldlM (init := { t with
        indices := t.indices.set node (some t.index)
        lowLink := t.lowLink.set node t.index
        index := t.index + 1
        stack := node :: t.stack
        inStack := t.inStack.set node true }) (tarjanStep g node)) >>= tarjanFinish node := by
  rw [strongConnect]
  simp only [h]
  rfl

theorem strongConnect_spec {g : Gr} (hg : WF g) :
    ∀ (n : Nat) (gray : List Nat) (v : Nat) (t : Tarjan), todo g t = n → TInv g gray t → t.indices[v]? = some none →
      (∀ x ∈ gray, Reach g x v) → ∃ t', strongConnect g v t = some t' ∧ SPost g gray v t t' := by
  intro n
  induction n using Nat.strong_induction_on with
  | _ n ih =>
    intro gray v t hn h hv hr
    have hlt : v < g.length := by rw [← h.lenI]; exact (List.getElem?_eq_some_iff.1 hv).1
    obtain ⟨nb, hnb⟩ : ∃ l, g[v]? = some l := ⟨g[v], List.getElem?_eq_getElem hlt⟩
    have hnv : ¬ Ixd t v := by rintro ⟨i, hi⟩; rw [hv] at hi; simp at hi
    have hpos := h.todo_pos hlt hnv
    rw [strongConnect_eq g v t nb hnb]
    obtain ⟨s, h1, h2⟩ := foldlM_inv (f := tarjanStep g v) (fun pre s => LInv g gray v t pre s) (l := nb)
      (enter_inv h hv hr) (by
        intro pre x post s hl hp
        refine step_inv hg h hv hr hp ⟨nb, hnb, by rw [hl]; simp⟩ ?_
        intro hx hgx
        refine ih _ ?_ (v :: gray) x s rfl hp.inv hx hgx
        rw [← hn]
        obtain ⟨T, lv, l1, -⟩ := hp.low
        obtain ⟨new, hnew⟩ := hp.scc
        simp only [todo, l1, hnew, List.length_append, List.length_cons, List.flatten_append]
        omega)
    obtain ⟨s', h3, h4⟩ := finish_inv h hv hr h2 (by
      rintro m ⟨l, hl, hm⟩
      rw [hnb] at hl; cases hl; exact hm)
    exact ⟨s', by simp [h1, h3], h4⟩

/-- What the search for components delivers. -/
structure SccOk (g : Gr) (sccs : List (List Nat)) : Prop where
  nodup : sccs.flatten.Nodup
  cover : ∀ v, v ∈ sccs.flatten ↔ v < g.length
  comp : ∀ c ∈ sccs, c ≠ [] ∧ ∀ u ∈ c, ∀ w, w ∈ c ↔ Mutual g u w
  closed : ∀ A c B, sccs = A ++ c :: B → ∀ u ∈ c, ∀ w, Edge g u w → w ∈ c ∨ w ∈ A.flatten

theorem findSccs_spec {g : Gr} (hg : WF g) : ∃ sccs, findSccs g = some sccs ∧ SccOk g sccs := by
  obtain ⟨t, h1, h2, h3⟩ := foldlM_inv (f := fun (t : Tarjan) node =>
      match t.indices[node]? with
      | none => none
      | some none => strongConnect g node t
      | some (some _) => some t)
    (fun pre s => TInv g [] s ∧ ∀ v ∈ pre, Ixd s v) (l := List.range g.length)
    (init := ⟨0, [], List.replicate g.length false, List.replicate g.length none, List.replicate g.length 0, []⟩) (by
      refine ⟨⟨by simp, by simp, by simp, ?_, by simp, ?_, ?_, by simp, by simp, by simp, by simp, ?_, by simp, by simp⟩, by simp⟩
      · intro v; simp [List.getElem?_replicate]
      · intro v; simp [Ixd, List.getElem?_replicate]
      · rintro v ⟨i, hi⟩; simp [List.getElem?_replicate] at hi
      · rintro v ⟨i, hi⟩; simp [List.getElem?_replicate] at hi) (by
      intro pre x post s hl hp
      have hx : x < g.length := List.mem_range.1 (by rw [hl]; simp)
      cases hi : s.indices[x]? with
      | none => rw [List.getElem?_eq_none_iff, hp.1.lenI] at hi; omega
      | some o =>
        cases o with
        | none =>
          obtain ⟨t', h1, h2⟩ := strongConnect_spec hg _ [] x s rfl hp.1 hi (by simp)
          refine ⟨t', h1, h2.inv, ?_⟩
          intro v hv
          rcases List.mem_append.1 hv with hv | hv
          · exact (ixd_congr (t := s) (h2.extI v (hp.2 v hv))).2 (hp.2 v hv)
          · simp only [List.mem_singleton] at hv; subst hv; exact ⟨_, h2.vIx⟩
        | some i =>
          refine ⟨s, rfl, hp.1, ?_⟩
          intro v hv
          rcases List.mem_append.1 hv with hv | hv
          · exact hp.2 v hv
          · simp only [List.mem_singleton] at hv; subst hv; exact ⟨i, hi⟩)
  have hempty : t.stack = [] := by
    cases hs : t.stack with
    | nil => rfl
    | cons a l =>
      obtain ⟨x, hx, -⟩ := h2.toGray a (by rw [hs]; simp)
      simp at hx
  refine ⟨t.sccs, ?_, ?_⟩
  · simp only [findSccs, Option.map_eq_some_iff]
    exact ⟨t, h1, rfl⟩
  · have hnd := h2.nodup
    rw [hempty] at hnd
    refine ⟨by simpa using hnd, ?_, h2.comp, h2.closed⟩
    intro v
    have := h2.ixd v
    rw [hempty, List.nil_append] at this
    rw [← this]
    exact ⟨fun h => h2.lt h, fun h => h3 v (List.mem_range.2 h)⟩

end Ferlium.Graph
