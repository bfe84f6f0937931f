import Verif.Proofs.LicmApply
import Mathlib.Tactic

/-!
# Moving calls out of loops: the search ends
-/

namespace Ferlium.Licm

/-! ## Moves end -/

/-- The numbers of the blocks of all operations, added. -/
def weightFrom : Nat → List Block → Nat
  | _, [] => 0
  | b, blk :: rest => b * blk.ops.length + weightFrom (b + 1) rest

def Fn.weight (F : Fn) : Nat := weightFrom 0 F

theorem weightFrom_modify (f : List Op → List Op) : ∀ (F : List Block) (k b : Nat) (blk : Block), F[b]? = some blk →
    weightFrom k (F.modify b fun blk => { blk with ops := f blk.ops }) + (k + b) * blk.ops.length =
      weightFrom k F + (k + b) * (f blk.ops).length
  | [], k, b, blk, h => by simp at h
  | a :: F, k, 0, blk, h => by
    simp only [List.getElem?_cons_zero, Option.some.injEq] at h
    subst h
    simp only [List.modify_zero_cons, weightFrom, Nat.add_zero]
    omega
  | a :: F, k, b + 1, blk, h => by
    simp only [List.getElem?_cons_succ] at h
    have := weightFrom_modify f F (k + 1) b blk h
    simp only [List.modify_succ_cons, weightFrom]
    rw [show k + 1 + b = k + (b + 1) by omega] at this
    omega

theorem weight_modify {F : Fn} {b : Nat} {blk : Block} (h : F[b]? = some blk) (f : List Op → List Op) :
    (F.modify b f).weight + b * blk.ops.length = F.weight + b * (f blk.ops).length := by
  have := weightFrom_modify f F 0 b blk h
  simpa [Fn.weight, Fn.modify] using this

theorem weight_erase {F : Fn} {b i : Nat} {op : Op} (h : (F[b]?).bind (·.ops[i]?) = some op) :
    (F.modify b (·.eraseIdx i)).weight + b = F.weight := by
  simp only [Option.bind_eq_some_iff] at h
  obtain ⟨blk, hb, hi⟩ := h
  have hl : i < blk.ops.length := (List.getElem?_eq_some_iff.mp hi).1
  have := weight_modify hb (·.eraseIdx i)
  simp only [List.length_eraseIdx_of_lt hl] at this
  obtain ⟨n, hn⟩ : ∃ n, blk.ops.length = n + 1 := ⟨blk.ops.length - 1, by omega⟩
  rw [hn] at this
  simp only [Nat.add_sub_cancel, Nat.mul_add, Nat.mul_one] at this
  omega

theorem weight_add {F : Fn} {b k : Nat} (f : List Op → List Op) (hf : ∀ l, (f l).length ≤ l.length + k) :
    (F.modify b f).weight ≤ F.weight + b * k := by
  cases hb : F[b]? with
  | none =>
    have : F.modify b f = F := by
      unfold Fn.modify
      rw [List.modify_eq_self]
      exact List.getElem?_eq_none_iff.mp hb
    rw [this]; omega
  | some blk =>
    have := weight_modify hb f
    have := Nat.mul_le_mul_left b (hf blk.ops)
    rw [Nat.mul_add] at this
    omega

theorem length_insertIdx_le {α : Type} (l : List α) (k : Nat) (a : α) : (l.insertIdx k a).length ≤ l.length + 1 := by
  rw [List.length_insertIdx]; split <;> omega

/-- What is found, whatever the function: a call in a block after the block before the loop, and an allocation in
such a block. -/
theorem findHoist_sites {F : Fn} {dom : Nat → Nat → Bool} {reachable : Nat → Bool}
    {trivial willReturn : Nat → Bool} {headers : List Nat} {h : Hoist}
    (hf : findHoist F dom reachable trivial willReturn headers = some h) :
    (∃ op info, (h.call, op) ∈ F.sites ∧ op.kind = .call info) ∧ h.preheader < h.call.1 ∧
      ∀ s, h.alloca = some s → h.preheader < s.1 ∧ ∃ op ty, (s, op) ∈ F.sites ∧ op.kind = .alloca ty := by
  unfold findHoist at hf
  split at hf
  · simp at hf
  · rename_i m hm
    obtain ⟨hd, _, hhd⟩ := List.exists_of_findSome?_eq_some hf
    split at hhd
    · rename_i nl hnl
      unfold findInLoop at hhd
      split at hhd
      · simp at hhd
      · rename_i hord
        have horder : ∀ b ∈ nl.blocks, nl.preheader < b := by
          intro b hb
          simp only [List.any_eq_true, decide_eq_true_eq, not_exists, not_and, not_le] at hord
          exact hord b hb
        obtain ⟨b, hb, hbb⟩ := List.exists_of_findSome?_eq_some hhd
        have hbl : b ∈ nl.blocks := by
          have := (List.mem_filter.mp hb).2
          simpa using this
        split at hbb
        · simp at hbb
        · rename_i blk hblk
          obtain ⟨⟨⟨b', i⟩, op⟩, hs, hc⟩ := List.exists_of_findSome?_eq_some hbb
          obtain ⟨rfl, _, hop⟩ := mem_opsFrom.mp hs
          obtain ⟨call, info, r, defSite, aop, ty, -, h2, -, h4, h5, -, -, -, -, -, h11, h12, h13⟩ := candidate_spec hc
          rw [h11, h12, h13]
          refine ⟨⟨op, info, mem_sites.mpr ⟨blk, hblk, by simpa using hop⟩, h2⟩, horder _ hbl, ?_⟩
          intro s hs
          split at hs
          · rename_i hin
            cases hs
            exact ⟨horder _ hin, aop, ty, (definition_spec h4).1, h5⟩
          · simp at hs
    · simp at hhd

theorem sites_get {F : Fn} {s : Site} {op : Op} (h : (s, op) ∈ F.sites) : (F[s.1]?).bind (·.ops[s.2]?) = some op := by
  obtain ⟨blk, h1, h2⟩ := mem_sites.mp h
  simp [h1, h2]

/-- Every move that is found can be done, and takes operations to earlier blocks. -/
theorem apply_weight {F : Fn} {dom : Nat → Nat → Bool} {reachable : Nat → Bool}
    {trivial willReturn : Nat → Bool} {headers : List Nat} {h : Hoist}
    (hf : findHoist F dom reachable trivial willReturn headers = some h) :
    ∃ F', applyHoist F h = some F' ∧ F'.weight < F.weight := by
  obtain ⟨⟨op, info, hop, hk⟩, hlt, hal⟩ := findHoist_sites hf
  have hget := sites_get hop
  have hw := weight_erase hget
  unfold applyHoist
  rw [hget]
  simp only
  cases ha : h.alloca with
  | none =>
    refine ⟨_, rfl, ?_⟩
    have := weight_add (F := F.modify h.call.1 (·.eraseIdx h.call.2)) (b := h.preheader) (k := 1)
      (·.insertIdx h.insertion op) (fun l => length_insertIdx_le l _ _)
    omega
  | some site =>
    obtain ⟨hlt', aop, ty, haop, hak⟩ := hal site ha
    have hne : site ≠ h.call := by
      rintro rfl
      have := hget.symm.trans (sites_get haop)
      cases this
      rw [hk] at hak; simp at hak
    have hget' : ((F.modify h.call.1 (·.eraseIdx h.call.2))[site.1]?).bind
        (·.ops[site.2 - (if site.1 = h.call.1 ∧ site.2 > h.call.2 then 1 else 0)]?) = some aop := by
      obtain ⟨blk, h1, h2⟩ := mem_sites.mp haop
      rw [modify_get]
      by_cases e : site.1 = h.call.1
      · rw [if_pos e, h1]
        simp only [e, true_and, Option.map_some, Option.bind_some, List.getElem?_eraseIdx]
        have hne2 : site.2 ≠ h.call.2 := fun e2 => hne (Prod.ext e e2)
        by_cases hgt : site.2 > h.call.2
        · rw [if_pos hgt, if_neg (by omega), show site.2 - 1 + 1 = site.2 by omega]; exact h2
        · rw [if_neg hgt, Nat.sub_zero, if_pos (by omega)]; exact h2
      · rw [if_neg e, h1]
        simp only [e, false_and, if_false, Option.bind_some, Nat.sub_zero]; exact h2
    have hw' := weight_erase hget'
    simp only
    rw [hget']
    simp only
    refine ⟨_, rfl, ?_⟩
    have := weight_add (F := (F.modify h.call.1 (·.eraseIdx h.call.2)).modify site.1
        (·.eraseIdx (site.2 - (if site.1 = h.call.1 ∧ site.2 > h.call.2 then 1 else 0)))) (b := h.preheader) (k := 2)
      (fun l => (l.insertIdx h.insertion aop).insertIdx (h.insertion + 1) op)
      (fun l => by
        have h1 := length_insertIdx_le (l.insertIdx h.insertion aop) (h.insertion + 1) op
        have h2 := length_insertIdx_le l h.insertion aop
        omega)
    omega

theorem hoistAll_total (dom : Fn → Nat → Nat → Bool) (reachable : Fn → Nat → Bool) (trivial willReturn : Nat → Bool)
    (orders : Fn → List Nat) : ∀ (n : Nat) (F : Fn), F.weight < n →
      ∃ F', hoistAll dom reachable trivial willReturn orders n F = some F' ∧
        findHoist F' (dom F') (reachable F') trivial willReturn (orders F') = none
  | 0, F, h => by omega
  | n + 1, F, h => by
    unfold hoistAll
    cases hf : findHoist F (dom F) (reachable F) trivial willReturn (orders F) with
    | none => exact ⟨F, rfl, hf⟩
    | some x =>
      obtain ⟨F', h1, h2⟩ := apply_weight hf
      simp only [h1]
      exact hoistAll_total dom reachable trivial willReturn orders n F' (by omega)

/-! ## The table of roots -/

/-- The number of registers in the table. -/
def Roots.size (m : Roots) : Nat := (m.map (·.1)).toFinset.card

theorem rootFold_size {F : Fn} (wf : Wf F) {ops : List Op} (hops : ∀ op ∈ ops, ∃ s, (s, op) ∈ F.sites) :
    ∀ {p : Roots × Bool}, RootsSound F p.1 →
      p.1.size ≤ (ops.foldl rootStep p).1.size ∧
      ((ops.foldl rootStep p).2 = true → p.2 = true ∨ p.1.size < (ops.foldl rootStep p).1.size) := by
  induction ops with
  | nil => intro p _; exact ⟨Nat.le_refl _, fun h => .inl h⟩
  | cons a ops ih =>
    intro p hp
    have hs := rootStep_sound (hops a List.mem_cons_self) hp
    obtain ⟨h1, h2⟩ := ih (fun o ho => hops o (List.mem_cons_of_mem _ ho)) hs
    simp only [List.foldl_cons]
    rcases rootStep_cases p a with h | ⟨r, q, _, _, _, hg, h⟩
    · rw [h] at h1 h2 ⊢; exact ⟨h1, h2⟩
    · have hnew : r ∉ p.1.map (·.1) := by
        intro hm
        obtain ⟨⟨r', q'⟩, hm', rfl⟩ := List.mem_map.mp hm
        obtain ⟨q'', hq''⟩ := Roots.get_isSome hm'
        have e1 : RootOf F r' q := hs r' q (by rw [h]; simp)
        have e2 : RootOf F r' q'' := hp _ _ (Roots.get_mem hq'')
        exact hg (by rw [e1.functional wf e2]; exact hq'')
      have hlt : p.1.size < (rootStep p a).1.size := by
        rw [h]
        unfold Roots.size
        rw [List.map_cons, List.toFinset_cons, Finset.card_insert_of_notMem (by simpa using hnew)]
        omega
      exact ⟨by omega, fun _ => .inr (by omega)⟩

theorem RootOf.defined {F : Fn} {r : Reg} {q : Root} (h : RootOf F r q) : r ∈ F.sites.filterMap (·.2.result) := by
  cases h with
  | own h1 h2 _ => exact List.mem_filterMap.mpr ⟨_, h1, h2⟩
  | part h1 h2 => exact List.mem_filterMap.mpr ⟨_, h1, h2⟩
  | partParam h1 h2 => exact List.mem_filterMap.mpr ⟨_, h1, h2⟩

theorem Roots.size_le {F : Fn} {m : Roots} (h : RootsSound F m) : m.size ≤ F.sites.length := by
  unfold Roots.size
  calc (m.map (·.1)).toFinset.card ≤ (F.sites.filterMap (·.2.result)).toFinset.card := by
        apply Finset.card_le_card
        intro r hr
        simp only [List.mem_toFinset] at hr ⊢
        obtain ⟨⟨r', q⟩, hm, rfl⟩ := List.mem_map.mp hr
        exact (h _ _ hm).defined
    _ ≤ (F.sites.filterMap (·.2.result)).length := List.toFinset_card_le _
    _ ≤ F.sites.length := List.length_filterMap_le _ _

theorem rootsLoop_total {F : Fn} (wf : Wf F) {ops : List Op} (hops : ∀ op ∈ ops, ∃ s, (s, op) ∈ F.sites) :
    ∀ {n : Nat} {m : Roots}, RootsSound F m → F.sites.length < n + m.size → ∃ m', rootsLoop ops n m = some m'
  | 0, m, hm, hn => by have := Roots.size_le hm; omega
  | n + 1, m, hm, hn => by
    unfold rootsLoop
    have hs := (rootFold hops (p := (m, false)) hm).1
    obtain ⟨_, h2⟩ := rootFold_size wf hops (p := (m, false)) hm
    split
    · rename_i m₁ e
      rw [e] at hs h2
      rcases h2 rfl with h | h
      · simp at h
      · exact rootsLoop_total wf hops hs (by simp only at h; omega)
    · exact ⟨_, rfl⟩

theorem placeRoots_total {F : Fn} (wf : Wf F) : ∃ m, placeRoots F = some m :=
  rootsLoop_total wf (fun op hop => by
    obtain ⟨⟨s, o⟩, hs, rfl⟩ := List.mem_map.mp hop
    exact ⟨s, hs⟩) (baseRoots_sound F) (by omega)

/-! ## Loops -/

theorem predecessors_lt {F : Fn} {b p : Nat} (h : p ∈ F.predecessors b) : p < F.length := by
  unfold Fn.predecessors at h
  simpa using (List.mem_filter.mp h).1

theorem growFold_size {h N : Nat} : ∀ (preds : List Nat) (p : List Nat × List Nat), (∀ x ∈ preds, x < N) →
    p.1.Nodup → (∀ x ∈ p.1, x < N) →
      (preds.foldl (growStep h) p).1.Nodup ∧ (∀ x ∈ (preds.foldl (growStep h) p).1, x < N) ∧
      (preds.foldl (growStep h) p).2.length + p.1.length ≤ p.2.length + (preds.foldl (growStep h) p).1.length
  | [], p, _, h1, h2 => ⟨h1, h2, by simp⟩
  | a :: preds, p, hp, h1, h2 => by
    simp only [List.foldl_cons]
    have ha := hp a List.mem_cons_self
    by_cases hm : a ∈ p.1
    · have e : growStep h p a = p := by simp [growStep, hm]
      rw [e]
      exact growFold_size preds p (fun x hx => hp x (List.mem_cons_of_mem _ hx)) h1 h2
    · have e : (growStep h p a).1 = a :: p.1 := by simp [growStep, hm]
      have e2 : (growStep h p a).2.length ≤ p.2.length + 1 := by
        simp only [growStep, hm, if_false]; split <;> simp
      obtain ⟨g1, g2, g3⟩ := growFold_size preds (growStep h p a) (fun x hx => hp x (List.mem_cons_of_mem _ hx))
        (by rw [e]; exact List.nodup_cons.mpr ⟨hm, h1⟩) (by
          rw [e]; intro x hx
          rcases List.mem_cons.mp hx with rfl | hx
          · exact ha
          · exact h2 x hx)
      refine ⟨g1, g2, ?_⟩
      rw [e] at g3
      simp only [List.length_cons] at g3
      omega

theorem nodup_length {N : Nat} {l : List Nat} (h : l.Nodup) (hb : ∀ x ∈ l, x < N) : l.length ≤ N := by
  have : l ⊆ List.range N := fun x hx => List.mem_range.mpr (hb x hx)
  simpa using (List.Nodup.subperm h this).length_le

theorem grow_total {F : Fn} {h : Nat} : ∀ {n : Nat} {set pending : List Nat}, set.Nodup → (∀ x ∈ set, x < F.length) →
    pending.length + F.length ≤ n + set.length →
    ∃ set', grow F h n (set, pending) = some set' ∧ set'.Nodup ∧ ∀ x ∈ set', x < F.length
  | n, set, [], h1, h2, _ => ⟨set, by unfold grow; rfl, h1, h2⟩
  | 0, set, b :: pending, h1, h2, hn => by
    have := nodup_length h1 h2
    simp only [List.length_cons] at hn; omega
  | n + 1, set, b :: pending, h1, h2, hn => by
    rw [grow]
    obtain ⟨g1, g2, g3⟩ := growFold_size (h := h) (N := F.length) (F.predecessors b) (set, pending)
      (fun x hx => predecessors_lt hx) h1 h2
    generalize (F.predecessors b).foldl (growStep h) (set, pending) = r at g1 g2 g3 ⊢
    obtain ⟨a, c⟩ := r
    refine grow_total g1 g2 ?_
    simp only [List.length_cons] at hn g3
    omega

theorem addTail_total {F : Fn} {h : Nat} (hh : h < F.length) {set : List Nat} (h1 : set.Nodup)
    (h2 : ∀ x ∈ set, x < F.length) {t : Nat} (ht : t < F.length) :
    ∃ set', addTail F h set t = some set' ∧ set'.Nodup ∧ ∀ x ∈ set', x < F.length := by
  unfold addTail
  have key : ∃ s, (if h ∈ set then set else h :: set) = s ∧ s.Nodup ∧ ∀ x ∈ s, x < F.length := by
    refine ⟨_, rfl, ?_⟩
    split
    · exact ⟨h1, h2⟩
    · rename_i hm
      refine ⟨List.nodup_cons.mpr ⟨hm, h1⟩, fun x hx => ?_⟩
      rcases List.mem_cons.mp hx with rfl | hx
      · exact hh
      · exact h2 x hx
  obtain ⟨s, hs, g1, g2⟩ := key
  simp only [hs]
  split
  · exact ⟨_, rfl, g1, g2⟩
  · rename_i hm
    refine grow_total (List.nodup_cons.mpr ⟨hm, g1⟩) (fun x hx => ?_) (by simp only [List.length_cons, List.length_nil]; omega)
    rcases List.mem_cons.mp hx with rfl | hx
    · exact ht
    · exact g2 x hx

theorem addTails_total {F : Fn} {h : Nat} (hh : h < F.length) : ∀ (ts : List Nat) {set : List Nat}, (∀ t ∈ ts, t < F.length) →
    set.Nodup → (∀ x ∈ set, x < F.length) → ∃ set', ts.foldlM (addTail F h) set = some set'
  | [], set, _, _, _ => ⟨set, rfl⟩
  | t :: ts, set, ht, h1, h2 => by
    obtain ⟨s, e, g1, g2⟩ := addTail_total hh h1 h2 (ht t List.mem_cons_self)
    rw [List.foldlM_cons, e]
    exact addTails_total hh ts (fun x hx => ht x (List.mem_cons_of_mem _ hx)) g1 g2

theorem naturalLoop_total {F : Fn} (wf : Wf F) (dom : Nat → Nat → Bool) (reachable : Nat → Bool) (h : Nat) :
    ∃ r, naturalLoop F dom reachable h = some r := by
  have key : ∃ bs, loopBlocks F dom reachable h = some bs := by
    unfold loopBlocks
    generalize hts : ((List.range F.length).filter fun t => reachable t && (F.successors t).contains h && dom h t) = ts
    cases ts with
    | nil => exact ⟨[], rfl⟩
    | cons t ts =>
      have hmem : ∀ x ∈ t :: ts, x < F.length ∧ h ∈ F.successors x := by
        intro x hx
        rw [← hts] at hx
        obtain ⟨h1, h2⟩ := List.mem_filter.mp hx
        simp only [Bool.and_eq_true, List.contains_eq_mem, decide_eq_true_eq] at h2
        exact ⟨by simpa using h1, h2.1.2⟩
      exact addTails_total (wf.targets _ _ (hmem t List.mem_cons_self).2) _ (fun x hx => (hmem x hx).1) List.nodup_nil (by simp)
  obtain ⟨bs, hbs⟩ := key
  unfold naturalLoop
  rw [hbs]
  cases bs with
  | nil => exact ⟨_, rfl⟩
  | cons b bs =>
    simp only
    split
    · split
      · split
        · exact ⟨_, rfl⟩
        · exact ⟨_, rfl⟩
      · exact ⟨_, rfl⟩
    · exact ⟨_, rfl⟩

/-! ## Roots after a move -/

theorem Keep.sub {α : Type} {rm : Nat → Prop} {i : Nat} {l l' : List α} (h : Keep rm i l l') : ∀ a ∈ l', a ∈ l := by
  induction h with
  | nil => simp
  | skip _ _ ih => intro a ha; exact List.mem_cons_of_mem _ (ih a ha)
  | keep _ _ ih =>
    intro a ha
    rcases List.mem_cons.mp ha with rfl | ha
    · exact List.mem_cons_self
    · exact List.mem_cons_of_mem _ (ih a ha)

theorem Keep.lost {α : Type} {rm : Nat → Prop} {i : Nat} {l l' : List α} (h : Keep rm i l l') :
    ∀ (j : Nat) a, l[j]? = some a → a ∈ l' ∨ rm (i + j) := by
  induction h with
  | nil => simp
  | @skip i x l l' hr _ ih =>
    intro j a ha
    cases j with
    | zero => exact .inr hr
    | succ j =>
      rw [show i + (j + 1) = i + 1 + j by omega]
      exact ih j a (by simpa using ha)
  | @keep i x l l' hr _ ih =>
    intro j a ha
    cases j with
    | zero => simp only [List.getElem?_cons_zero, Option.some.injEq] at ha; subst ha; exact .inl List.mem_cons_self
    | succ j =>
      rw [show i + (j + 1) = i + 1 + j by omega]
      rcases ih j a (by simpa using ha) with h | h
      · exact .inl (List.mem_cons_of_mem _ h)
      · exact .inr h

theorem length_apply {F F' : Fn} {h : Hoist} (ha : applyHoist F h = some F') : F'.length = F.length := by
  unfold applyHoist at ha
  split at ha
  · simp at ha
  · simp only at ha
    split at ha
    · cases ha; simp [Fn.modify]
    · split at ha
      · simp at ha
      · cases ha; simp [Fn.modify]

open Classical in
/-- The operations are the same ones. -/
theorem Plan.same_ops {F : Fn} {ρ : Reg → Option Root} (p : Plan F ρ) {F' : Fn} (hF : p.Result F')
    (hlen : F'.length = F.length) (op : Op) : (∃ s, (s, op) ∈ F'.sites) ↔ ∃ s, (s, op) ∈ F.sites := by
  have hins : ∀ o ∈ p.ins, ∃ s, (s, o) ∈ F.sites := by
    intro o ho
    unfold Plan.ins at ho
    have hop : ((p.cb, p.ci), p.op) ∈ F.sites := mem_sites.mpr ⟨_, p.hcblk, p.hop⟩
    split at ho
    · rename_i hm
      obtain ⟨_, ⟨blk, h1, h2⟩, _⟩ := p.hmoved hm
      simp only [List.mem_cons, List.not_mem_nil, or_false] at ho
      rcases ho with rfl | rfl
      · exact ⟨(p.ab, p.ai), mem_sites.mpr ⟨blk, h1, h2⟩⟩
      · exact ⟨_, hop⟩
    · simp only [List.mem_singleton] at ho
      subst ho; exact ⟨_, hop⟩
  have hmem : ∀ {G : Fn} {b : Nat} {blk : Block} {o : Op}, G[b]? = some blk → o ∈ blk.ops → ∃ s, (s, o) ∈ G.sites := by
    intro G b blk o hb ho
    obtain ⟨i, hi, rfl⟩ := List.getElem_of_mem ho
    exact ⟨(b, i), mem_sites.mpr ⟨blk, hb, List.getElem?_eq_getElem hi⟩⟩
  constructor
  · rintro ⟨⟨b, i⟩, hs⟩
    obtain ⟨blk', hb', hi'⟩ := mem_sites.mp hs
    have hlt : b < F.length := by rw [← hlen]; exact (List.getElem?_eq_some_iff.mp hb').1
    obtain ⟨ops', h1, h2, h3, h4⟩ := hF b F[b] (List.getElem?_eq_getElem hlt)
    rw [h1] at hb'; cases hb'
    have hin := List.mem_of_getElem? hi'
    by_cases hL : p.L b
    · exact hmem (List.getElem?_eq_getElem hlt) ((h2 hL).sub _ hin)
    · by_cases hP : b = p.P
      · simp only [h4 hP, List.mem_append] at hin
        rcases hin with hin | hin | hin
        · exact hmem (List.getElem?_eq_getElem hlt) (List.mem_of_mem_take hin)
        · exact hins _ hin
        · exact hmem (List.getElem?_eq_getElem hlt) (List.mem_of_mem_drop hin)
      · simp only [h3 hL hP] at hin
        exact hmem (List.getElem?_eq_getElem hlt) hin
  · rintro ⟨⟨b, i⟩, hs⟩
    obtain ⟨blk, hb, hi⟩ := mem_sites.mp hs
    have hpre : ∀ o ∈ p.ins, ∃ s, (s, o) ∈ F'.sites := by
      intro o ho
      obtain ⟨ops', h1, _, _, h4⟩ := hF p.P p.pre p.hpre
      refine hmem h1 ?_
      simp only [h4 rfl, List.mem_append]
      exact .inr (.inl ho)
    obtain ⟨ops', h1, h2, h3, h4⟩ := hF b blk hb
    by_cases hL : p.L b
    · rcases (h2 hL).lost i op hi with h | h
      · exact hmem h1 h
      · rw [Nat.zero_add] at h
        rcases h with ⟨rfl, rfl⟩ | ⟨hm, rfl, rfl⟩
        · have e := p.hcblk; rw [hb] at e; cases e
          have e := p.hop; rw [hi] at e; cases e
          refine hpre _ ?_
          unfold Plan.ins; split <;> simp
        · obtain ⟨_, ⟨blk', g1, g2⟩, _⟩ := p.hmoved hm
          rw [hb] at g1; cases g1
          rw [hi] at g2; cases g2
          refine hpre _ ?_
          unfold Plan.ins; rw [if_pos hm]; simp
    · by_cases hP : b = p.P
      · have hin := List.mem_of_getElem? hi
        refine hmem h1 ?_
        simp only [h4 hP, List.mem_append]
        rw [← List.take_append_drop p.k blk.ops] at hin
        rcases List.mem_append.mp hin with h | h
        · exact .inl h
        · exact .inr (.inr h)
      · refine hmem h1 ?_
        simp only [h3 hL hP]
        exact List.mem_of_getElem? hi

theorem RootOf.mono {F G : Fn} (h : ∀ op, (∃ s, (s, op) ∈ F.sites) → ∃ s, (s, op) ∈ G.sites) {r : Reg} {q : Root}
    (hr : RootOf F r q) : RootOf G r q := by
  induction hr with
  | own h1 h2 h3 => obtain ⟨s, hs⟩ := h _ ⟨_, h1⟩; exact .own hs h2 h3
  | part h1 h2 h3 h4 _ ih => obtain ⟨s, hs⟩ := h _ ⟨_, h1⟩; exact .part hs h2 h3 h4 ih
  | partParam h1 h2 h3 h4 => obtain ⟨s, hs⟩ := h _ ⟨_, h1⟩; exact .partParam hs h2 h3 h4

end Ferlium.Licm
