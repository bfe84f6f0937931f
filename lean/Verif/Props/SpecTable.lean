import Verif.Proofs.SpecShare

/-!
Property C37: dropping, renumbering and sharing specialised functions is transparent.

`unfold M m n id` is what the function `id` is for its callers, to depth `n`: its code with every
function it names replaced by what that function is.  Equality at all depths means that no caller can
tell the two apart, however the functions call each other.
-/

namespace Ferlium.SpecTable

variable {S : Type}

/-- Retained bodies name existing functions only. -/
theorem rewritten_inRange {M : Nat} {m : Mod S} {kept : List (Option Nat)} {live : Nat → Prop}
    (hp : Plan M m kept live) (hsurv : ∀ (i : Nat), kept[i]? = some (some i) → live i) :
    InRange M (⟨m.functions.map (Option.map (Body.ren (rename (m.table M) kept))),
        (retain (keeps kept) m.specs 0).map fun s =>
          ⟨s.original, s.body.ren (rename (m.table M) kept)⟩⟩ : Mod S) := by
  have hmem : ∀ (l : List (Spec S)) (i : Nat) (s : Spec S), s ∈ retain (keeps kept) l i →
      ∃ k, l[k]? = some s ∧ keeps kept (i + k) = true := by
    intro l
    induction l with
    | nil => intro i s h; simp [retain] at h
    | cons a l ih =>
      intro i s h
      simp only [retain] at h
      split_ifs at h with hk
      · rcases List.mem_cons.mp h with rfl | h
        · exact ⟨0, rfl, hk⟩
        · obtain ⟨k, h1, h2⟩ := ih (i + 1) s h
          exact ⟨k + 1, by simpa using h1, by rw [← h2]; congr 1; omega⟩
      · obtain ⟨k, h1, h2⟩ := ih (i + 1) s h
        exact ⟨k + 1, by simpa using h1, by rw [← h2]; congr 1; omega⟩
  have hren : ∀ id, (∀ i, (m.table M).indexOf id = some i → live i) →
      (rename (m.table M) kept id).module_ = M →
      (rename (m.table M) kept id).function <
        m.functions.length + (retain (keeps kept) m.specs 0).length := by
    intro id hl hM
    cases hi : (m.table M).indexOf id with
    | none =>
      have hr : rename (m.table M) kept id = id := by simp [rename, hi]
      rw [hr] at hM ⊢
      have := indexOf_declared hi hM
      omega
    | some i =>
      obtain ⟨j, hj, _⟩ := hp.keeps i (hl i hi)
      have hjj := hp.resolved i j hj
      have hjlt : j < m.specs.length := by
        rw [← hp.length]; exact (List.getElem?_eq_some_iff.mp hjj).1
      have hr : rename (m.table M) kept id = (m.table M).idOf (rank (keeps kept) j) := by
        simp [rename, hi, hj]
      rw [hr]
      have hget := retain_get m.specs (keeps kept) 0 j hjlt (by simpa [keeps] using hjj)
      simp only [Nat.zero_add] at hget
      rw [List.getElem?_eq_getElem hjlt] at hget
      have : rank (keeps kept) j < _ := (List.getElem?_eq_some_iff.mp hget).1
      simp only [Table.idOf, Mod.table]
      omega
  intro b hb id hid hM
  simp only [List.length_map]
  simp only [Mod.bodies, List.mem_append, List.mem_filterMap, List.mem_map, id_eq] at hb
  rcases hb with ⟨o, ⟨o', ho', rfl⟩, hob⟩ | ⟨s, ⟨s', hs', rfl⟩, rfl⟩
  · cases o' with
    | none => simp at hob
    | some b' =>
      simp only [Option.map_some, Option.some.injEq] at hob
      subst hob
      have : id ∈ b'.ids.map (rename (m.table M) kept) := by
        simpa [Body.ids, Body.ren] using hid
      obtain ⟨x, hx, rfl⟩ := List.mem_map.mp this
      exact hren x (hp.root b' ho' x hx) hM
  · obtain ⟨k, hk, hkeep⟩ := hmem _ _ _ hs'
    simp only [Nat.zero_add, keeps, decide_eq_true_eq] at hkeep
    have : id ∈ s'.body.ids.map (rename (m.table M) kept) := by
      simpa [Body.ids, Body.ren] using hid
    obtain ⟨x, hx, rfl⟩ := List.mem_map.mp this
    exact hren x (hp.step k s' (hsurv k hkeep) hk x hx) hM

theorem prune_plan {M : Nat} {m : Mod S} {live : List Bool} (hlen : live.length = m.specs.length)
    (hlive : ∀ (i : Nat), live[i]? = some true ↔ Reach M m i) :
    Plan M m (keptOfLive live 0) (Reach M m) := by
  refine ⟨by rw [keptOfLive_length, hlen], ?_, ?_, ?_, ?_, ?_⟩
  · intro i j h
    obtain ⟨h1, rfl⟩ := keptOfLive_some.mp h
    exact h
  · intro b hb id hid i hi
    exact Reach.root hb hid hi
  · intro i s hi hs id hid j hj
    exact Reach.step hi hs hid hj
  · intro i hi
    exact ⟨i, keptOfLive_some.mpr ⟨(hlive i).mpr hi, rfl⟩, hi⟩
  · intro i j a b _ hk ha hb
    obtain ⟨_, rfl⟩ := keptOfLive_some.mp hk
    rw [ha] at hb
    cases hb
    exact ⟨rfl, rfl, List.forall₂_same.mpr fun _ _ => Or.inl rfl, List.forall₂_same.mpr fun _ _ => Or.inl rfl⟩

theorem countP_range_get {l : List Bool} {p : Bool → Bool} :
    (List.range l.length).countP (fun i => (l[i]?).any p) = l.countP p := by
  induction l with
  | nil => rfl
  | cons b l ih =>
    rw [List.length_cons, List.range_succ_eq_map, List.countP_cons, List.countP_map, List.countP_cons]
    have : ((fun i => ((b :: l)[i]?).any p) ∘ Nat.succ) = fun i => (l[i]?).any p := by
      funext i; simp
    rw [this, ih]
    simp

/-- **C37** Pruning always succeeds and is transparent: the declared functions and those of other modules
keep their ids and what they are; the result names existing functions only. -/
theorem C37_prune_transparent (M : Nat) (m : Mod S) (hr : InRange M m) :
    ∃ m' dropped, prune M m = some (m', dropped) ∧ m'.functions.length = m.functions.length ∧
      InRange M m' ∧
      ∀ (id : Id), (id.module_ = M → id.function < m.functions.length) →
        ∀ n, unfold M m' n id = unfold M m n id := by
  unfold prune
  split_ifs with he
  · exact ⟨m, 0, rfl, rfl, hr, fun _ _ _ => rfl⟩
  · obtain ⟨live, e, hlen, hlive⟩ := reachable_spec hr
    have hp := prune_plan hlen hlive
    have hrw := rewrite_eq hr hp.length hp.resolved
    refine ⟨_, _, by simp only [e, hrw, Option.bind_eq_bind, Option.bind_some]; rfl, by simp, ?_, ?_⟩
    · refine rewritten_inRange hp ?_
      intro i hi
      exact (hlive i).mp (keptOfLive_some.mp hi).1
    · intro id hid n
      have hnone : (m.table M).indexOf id = none := by
        unfold Table.indexOf
        split_ifs with h1 h2
        · have := hid h1
          simp only [Mod.table] at h2
          omega
        · rfl
        · rfl
      have h := unfold_rewritten hp n id (by intro i hi; rw [hnone] at hi; cases hi)
      have hren : rename (m.table M) (keptOfLive live 0) id = id := by simp [rename, hnone]
      rw [hren] at h
      exact h

/-- **C37** Pruning keeps exactly the specialised functions some declared function uses, in order, each
with what it is, and reports how many it dropped. -/
theorem C37_prune_keeps_reachable (M : Nat) (m : Mod S) (hr : InRange M m) :
    ∃ m' dropped, prune M m = some (m', dropped) ∧ m'.specs.length + dropped = m.specs.length ∧
      ∃ pos : Nat → Nat, (∀ i j, Reach M m i → Reach M m j → i < j → pos i < pos j) ∧
        (∀ k, k < m'.specs.length ↔ ∃ i, Reach M m i ∧ pos i = k) ∧
        ∀ i, Reach M m i → ∀ n, unfold M m' n ((m'.table M).idOf (pos i)) = unfold M m n ((m.table M).idOf i) := by
  have hreachlt : ∀ i, Reach M m i → i < m.specs.length := by
    intro i hi
    cases hi with
    | root hb hid h => exact indexOf_lt hr (mem_bodies_fn hb) hid h
    | step _ hs hid h => exact indexOf_lt hr (mem_bodies_spec hs) hid h
  unfold prune
  split_ifs with he
  · have hnil : m.specs = [] := by simpa using he
    refine ⟨m, 0, rfl, by simp, id, fun i j _ _ h => h, ?_, fun i hi _ => rfl⟩
    intro k
    rw [hnil]
    simp only [List.length_nil, Nat.not_lt_zero, false_iff, not_exists, not_and]
    intro i hi
    have := hreachlt i hi
    rw [hnil] at this
    simp at this
  · obtain ⟨live, e, hlen, hlive⟩ := reachable_spec hr
    have hp := prune_plan hlen hlive
    have hrw := rewrite_eq hr hp.length hp.resolved
    have hkeep : ∀ i, keeps (keptOfLive live 0) i = true ↔ Reach M m i := by
      intro i
      simp only [keeps, decide_eq_true_eq]
      rw [keptOfLive_some, hlive]
      simp
    have hlast : ∀ k, rank (keeps (keptOfLive live 0)) (k + 1) =
        rank (keeps (keptOfLive live 0)) k + if keeps (keptOfLive live 0) k then 1 else 0 := by
      intro k
      simp only [rank, List.range_succ, List.countP_append, List.countP_singleton]
    have hmono : ∀ i j, i ≤ j → rank (keeps (keptOfLive live 0)) i ≤ rank (keeps (keptOfLive live 0)) j := by
      intro i j hij
      induction hij with
      | refl => exact le_rfl
      | step _ ih => rw [hlast]; omega
    have hlenr : (retain (keeps (keptOfLive live 0)) m.specs 0).length =
        rank (keeps (keptOfLive live 0)) m.specs.length := by
      rw [retain_length]
      simp only [Nat.zero_add]
    refine ⟨_, _, by simp only [e, hrw, Option.bind_eq_bind, Option.bind_some]; rfl, ?_,
      rank (keeps (keptOfLive live 0)), ?_, ?_, ?_⟩
    · rw [List.length_map, hlenr, ← hlen]
      unfold rank
      rw [List.countP_congr (q := fun i => (live[i]?).any id) (by
        intro i _
        rw [hkeep, ← hlive]
        cases live[i]? with
        | none => simp
        | some b => cases b <;> simp), countP_range_get]
      have := List.length_eq_countP_add_countP (p := fun b => b) (l := live)
      have h2 : live.countP (fun b => !b) = live.countP (fun b => decide (¬ b = true)) := by
        refine List.countP_congr ?_
        intro b _
        cases b <;> simp
      rw [h2]
      exact this.symm
    · intro i j hi hj hij
      have h1 := hlast i
      rw [if_pos ((hkeep i).mpr hi)] at h1
      have h2 := hmono (i + 1) j hij
      omega
    · intro k
      rw [List.length_map, hlenr]
      constructor
      · intro hk
        by_contra hc
        have hall : ∀ q, q ≤ m.specs.length → rank (keeps (keptOfLive live 0)) q ≤ k := by
          intro q
          induction q with
          | zero => intro _; simp [rank]
          | succ q ih =>
            intro hq
            have := ih (by omega)
            rw [hlast]
            split_ifs with hkq
            · by_contra hgt
              exact hc ⟨q, (hkeep q).mp hkq, by omega⟩
            · omega
        have := hall _ le_rfl
        omega
      · rintro ⟨i, hi, rfl⟩
        have h1 := hlast i
        rw [if_pos ((hkeep i).mpr hi)] at h1
        have h2 := hmono (i + 1) m.specs.length (hreachlt i hi)
        omega
    · intro i hi n
      have h := unfold_rewritten hp n ((m.table M).idOf i) (by
        intro j hj
        rw [Table.indexOf_idOf] at hj
        cases hj
        exact hi)
      have hren : rename (m.table M) (keptOfLive live 0) ((m.table M).idOf i) =
          (m.table M).idOf (rank (keeps (keptOfLive live 0)) i) := by
        simp only [rename, Table.indexOf_idOf, keptOfLive_some.mpr ⟨(hlive i).mpr hi, rfl⟩]
      rw [hren] at h
      refine Eq.trans ?_ h
      congr 2
      simp [Mod.table]

/-- **C37** Sharing always succeeds and is transparent: the declared functions and those of other modules
keep their ids; every specialised function has a representative; and every function is, to all depths,
what its representative is.  It holds for every digest.  Hypothesis: there are fewer functions than the
reserved id for self references. -/
theorem C37_share_transparent [DecidableEq S] (digest : Body S → Id → (Id → Option Id) → Nat) (M : Nat)
    (m : Mod S) (hr : InRange M m) (hb : m.functions.length + m.specs.length ≤ selfReference) :
    ∃ m', share digest M m = some m' ∧ m'.functions.length = m.functions.length ∧
      m'.specs.length ≤ m.specs.length ∧ InRange M m' ∧
      ∃ rep : Id → Id, (∀ id, (id.module_ = M → id.function < m.functions.length) → rep id = id) ∧
        ∀ id, (id.module_ = M → id.function < m.functions.length + m.specs.length) →
          ∀ n, unfold M m' n (rep id) = unfold M m n id := by
  unfold share
  split_ifs with he
  · exact ⟨m, rfl, rfl, le_rfl, hr, id, fun _ _ => rfl, fun _ _ _ => rfl⟩
  · obtain ⟨merged, e, hm⟩ := groupLoop_spec digest hr hb _ _ le_rfl (merges_init (M := M) (m := m))
    have hd := hm.down
    have hres : ∀ i, i < m.specs.length → ∃ r, resolve merged i = some r ∧ r ≤ i ∧ merged[r]? = some r :=
      resolve_spec hd
    have hkept : (List.range m.specs.length).mapM (resolve merged) =
        some ((List.range m.specs.length).map fun i => (resolve merged i).getD i) := by
      refine mapM_some ?_
      intro i hi
      obtain ⟨r, h1, _⟩ := hres i (List.mem_range.mp hi)
      simp [h1]
    have hget : ∀ i j : Nat, (((List.range m.specs.length).map fun i => (resolve merged i).getD i).map
        some)[i]? = some (some j) ↔ i < m.specs.length ∧ resolve merged i = some j := by
      intro i j
      by_cases hi : i < m.specs.length
      · obtain ⟨r, h1, _⟩ := hres i hi
        simp [List.getElem?_range hi, h1, hi]
      · simp only [List.getElem?_map]
        rw [List.getElem?_eq_none (by simpa using hi)]
        simp [hi]
    have hp : Plan M m (((List.range m.specs.length).map fun i => (resolve merged i).getD i).map some)
        (fun i => i < m.specs.length) := by
      refine ⟨by simp, ?_, ?_, ?_, ?_, ?_⟩
      · intro i j h
        obtain ⟨hi, hj⟩ := (hget i j).mp h
        obtain ⟨r, h1, h2, h3⟩ := hres i hi
        rw [h1] at hj
        cases hj
        exact (hget _ _).mpr ⟨by omega, resolve_self h3⟩
      · intro b hbm id hid i hi
        exact indexOf_lt hr (mem_bodies_fn hbm) hid hi
      · intro i s _ hs id hid j hj
        exact indexOf_lt hr (mem_bodies_spec hs) hid hj
      · intro i hi
        obtain ⟨r, h1, h2, _⟩ := hres i hi
        exact ⟨r, (hget i r).mpr ⟨hi, h1⟩, by omega⟩
      · intro i j a b hi hk ha hbb
        obtain ⟨_, hj⟩ := (hget i j).mp hk
        have ag := hm.agree i j a b hj ha hbb
        refine ⟨ag.original, ag.shape, ?_, ?_⟩
        · refine forall₂_mono_mem ?_ ag.operands
          intro u hu v hv hsame
          rcases hsame with rfl | ⟨p, q, k, e1, e2, e3, e4⟩
          · exact Or.inl rfl
          · exact Or.inr ⟨p, q, k, e1, e2, (hget p k).mpr ⟨idsOk_of hr ha u hu p e1, e3⟩,
              (hget q k).mpr ⟨idsOk_of hr hbb v hv q e2, e4⟩⟩
        · rw [ag.closures]
          exact List.forall₂_same.mpr fun _ _ => Or.inl rfl
    have hrw := rewrite_eq hr hp.length hp.resolved
    refine ⟨_, by simp only [e, hkept, Option.bind_eq_bind, Option.bind_some]; exact hrw, by simp, ?_, ?_,
      rename (m.table M) (((List.range m.specs.length).map fun i => (resolve merged i).getD i).map some), ?_, ?_⟩
    · rw [List.length_map, retain_length]
      refine le_trans List.countP_le_length ?_
      simp
    · exact rewritten_inRange hp (fun i hi => ((hget i i).mp hi).1)
    · intro id hid
      have hnone : (m.table M).indexOf id = none := by
        unfold Table.indexOf
        split_ifs with h1 h2
        · have := hid h1
          simp only [Mod.table] at h2
          omega
        · rfl
        · rfl
      simp [rename, hnone]
    · intro id hid n
      refine unfold_rewritten hp n id ?_
      intro i hi
      have h1 := Table.indexOf_some hi
      have h2 := hid (by rw [h1]; rfl)
      rw [h1] at h2
      simp only [Table.idOf, Mod.table] at h2
      omega

/-- A module with one declared function that uses the second of two specialised functions, which are
recursive copies of each other up to their own ids. -/
def exampleMod : Mod Nat :=
  ⟨[some ⟨0, [⟨7, 2⟩], []⟩], [⟨⟨7, 0⟩, ⟨1, [⟨7, 1⟩], []⟩⟩, ⟨⟨7, 0⟩, ⟨1, [⟨7, 2⟩], []⟩⟩]⟩

example : InRange 7 exampleMod ∧ exampleMod.functions.length + exampleMod.specs.length ≤ selfReference := by
  refine ⟨?_, by decide⟩
  intro b hb id hid hM
  simp only [exampleMod, Mod.bodies, List.filterMap_cons, id_eq, List.filterMap_nil, List.map_cons,
    List.map_nil, List.cons_append, List.nil_append, List.mem_cons, List.not_mem_nil, or_false] at hb
  rcases hb with rfl | rfl | rfl <;> simp [Body.ids] at hid <;> subst hid <;> decide

example : Reach 7 exampleMod 1 :=
  Reach.root (b := ⟨0, [⟨7, 2⟩], []⟩) (id := ⟨7, 2⟩) (by simp [exampleMod]) (by simp [Body.ids]) (by decide)

end Ferlium.SpecTable
