import Verif.Model.LinkedList
import Mathlib.Tactic

/-! The invariant relating the bucket storage to an ideal sequence. -/
namespace Ferlium.LinkedList

variable {T : Type}

/-- Ideal state: the sequence of (address, element), the stack of free addresses, the number of addresses ever used. -/
structure Ideal (T : Type) where
  live : List (Nat × T)
  free : List Nat
  bound : Nat

def addrs (s : List (Nat × T)) : List Nat := s.map Prod.fst

/-- First address of a sequence followed by `n`. -/
def hd (s : List (Nat × T)) (n : Option Nat) : Option Nat :=
  match s with
  | [] => n
  | (a, _) :: _ => some a

/-- Last address of a sequence preceded by `p`. -/
def lst (p : Option Nat) : List (Nat × T) → Option Nat
  | [] => p
  | (a, _) :: s => lst (some a) s

/-- The buckets of `s` are linked in order, the first one back to `p`, the last one forward to `n`. -/
def Seg (st : List (Bucket T)) (p : Option Nat) : List (Nat × T) → Option Nat → Prop
  | [], _ => True
  | (a, x) :: s, n => st[a]? = some ⟨p, hd s n, some x⟩ ∧ Seg st (some a) s n

/-- The buckets of `s` form a free list. -/
def FSeg (st : List (Bucket T)) : List Nat → Prop
  | [] => True
  | a :: s => st[a]? = some ⟨none, s.head?, none⟩ ∧ FSeg st s

@[simp] theorem hd_nil (n : Option Nat) : hd ([] : List (Nat × T)) n = n := rfl
@[simp] theorem hd_cons (a : Nat) (x : T) (s : List (Nat × T)) (n : Option Nat) : hd ((a, x) :: s) n = some a := rfl
@[simp] theorem lst_nil (p : Option Nat) : lst p ([] : List (Nat × T)) = p := rfl
@[simp] theorem lst_cons (a : Nat) (x : T) (s : List (Nat × T)) (p : Option Nat) : lst p ((a, x) :: s) = lst (some a) s := rfl

@[simp] theorem hd_append (s t : List (Nat × T)) (n : Option Nat) : hd (s ++ t) n = hd s (hd t n) := by
  cases s <;> rfl

@[simp] theorem lst_append (s t : List (Nat × T)) (p : Option Nat) : lst p (s ++ t) = lst (lst p s) t := by
  induction s generalizing p with
  | nil => rfl
  | cons x s ih => exact ih _

theorem seg_append {st : List (Bucket T)} {s t : List (Nat × T)} {p n : Option Nat} :
    Seg st p (s ++ t) n ↔ Seg st p s (hd t n) ∧ Seg st (lst p s) t n := by
  induction s generalizing p with
  | nil => simp [Seg, lst]
  | cons x s ih => obtain ⟨a, x⟩ := x; simp [Seg, lst, ih, and_assoc]

theorem seg_congr {st st' : List (Bucket T)} {s : List (Nat × T)} {p n : Option Nat}
    (h : ∀ a ∈ addrs s, st'[a]? = st[a]?) (hs : Seg st p s n) : Seg st' p s n := by
  induction s generalizing p with
  | nil => trivial
  | cons x s ih =>
    obtain ⟨a, x⟩ := x
    exact ⟨by rw [h a (by simp [addrs])]; exact hs.1,
      ih (fun b hb => h b (by simp [addrs] at hb ⊢; exact Or.inr hb)) hs.2⟩

theorem fseg_congr {st st' : List (Bucket T)} {s : List Nat} (h : ∀ a ∈ s, st'[a]? = st[a]?) (hs : FSeg st s) :
    FSeg st' s := by
  induction s with
  | nil => trivial
  | cons a s ih => exact ⟨by rw [h a (by simp)]; exact hs.1, ih (fun b hb => h b (by simp [hb])) hs.2⟩

theorem seg_mem {st : List (Bucket T)} {s : List (Nat × T)} {p n : Option Nat} (hs : Seg st p s n) {a : Nat} {x : T}
    (h : (a, x) ∈ s) : ∃ q r, st[a]? = some ⟨q, r, some x⟩ := by
  induction s generalizing p with
  | nil => simp at h
  | cons y s ih =>
    obtain ⟨b, y⟩ := y
    rcases List.mem_cons.1 h with heq | h
    · cases heq; exact ⟨_, _, hs.1⟩
    · exact ih hs.2 h

theorem fseg_mem {st : List (Bucket T)} {s : List Nat} (hs : FSeg st s) {a : Nat} (h : a ∈ s) :
    ∃ r, st[a]? = some ⟨none, r, none⟩ := by
  induction s with
  | nil => simp at h
  | cons b s ih =>
    rcases List.mem_cons.1 h with rfl | h
    · exact ⟨_, hs.1⟩
    · exact ih hs.2 h

/-- The representation invariant. -/
structure Inv (l : L T) (m : Ideal T) : Prop where
  seg : Seg l.storage none m.live none
  fre : FSeg l.storage m.free
  nodup : (addrs m.live ++ m.free).Nodup
  cover : ∀ a < m.bound, a ∈ addrs m.live ++ m.free
  bound : l.storage.length = m.bound
  head : l.head = hd m.live none
  tail : l.tail = lst none m.live
  free : l.free = m.free.head?
  size : l.size = m.live.length

theorem mem_addrs {s : List (Nat × T)} {a : Nat} : a ∈ addrs s ↔ ∃ x, (a, x) ∈ s := by
  simp [addrs]

theorem inBounds_iff {l : L T} {m : Ideal T} (h : Inv l m) (a : Nat) : inBounds l a = true ↔ a ∈ addrs m.live := by
  rw [inBounds]
  constructor
  · intro hb
    cases hs : l.storage[a]? with
    | none => simp [hs] at hb
    | some b =>
      rw [hs] at hb
      have hlt : a < m.bound := by rw [← h.bound]; exact (List.getElem?_eq_some_iff.1 hs).1
      rcases List.mem_append.1 (h.cover a hlt) with hm | hm
      · exact hm
      · obtain ⟨r, hr⟩ := fseg_mem h.fre hm
        rw [hs] at hr; cases hr; simp at hb
  · intro hm
    obtain ⟨x, hx⟩ := mem_addrs.1 hm
    obtain ⟨q, r, hr⟩ := seg_mem h.seg hx
    simp [hr]

theorem split_of_mem {s : List (Nat × T)} {a : Nat} (h : a ∈ addrs s) : ∃ A v B, s = A ++ (a, v) :: B := by
  obtain ⟨x, hx⟩ := mem_addrs.1 h
  obtain ⟨A, B, rfl⟩ := List.append_of_mem hx
  exact ⟨A, x, B, rfl⟩

/-- Taking an address from the free stack or a new one. -/
def fresh (m : Ideal T) : Option (Nat × Ideal T) :=
  match m.free with
  | a :: r => some (a, { m with free := r })
  | [] => if m.bound < capacity then some (m.bound, { m with bound := m.bound + 1 }) else none

theorem addr_lt {l : L T} {m : Ideal T} (h : Inv l m) {a : Nat} (ha : a ∈ addrs m.live) : a < m.bound := by
  obtain ⟨x, hx⟩ := mem_addrs.1 ha
  obtain ⟨q, r, hr⟩ := seg_mem h.seg hx
  rw [← h.bound]; exact (List.getElem?_eq_some_iff.1 hr).1

theorem free_lt {l : L T} {m : Ideal T} (h : Inv l m) {a : Nat} (ha : a ∈ m.free) : a < m.bound := by
  obtain ⟨r, hr⟩ := fseg_mem h.fre ha
  rw [← h.bound]; exact (List.getElem?_eq_some_iff.1 hr).1

/-- What allocation does to the invariant. -/
theorem allocate_spec {l : L T} {m : Ideal T} (h : Inv l m) (p q : Option Nat) (x : T) :
    match fresh m with
    | none => allocateBucket l p q x = none
    | some (n, m') => ∃ st fr, allocateBucket l p q x = some (n, { l with storage := st, free := fr }) ∧
        st[n]? = some ⟨p, q, some x⟩ ∧ (∀ k, k ≠ n → st[k]? = l.storage[k]?) ∧ st.length = m'.bound ∧
        n ∉ addrs m.live ∧ n ∉ m'.free ∧ fr = m'.free.head? ∧ m'.live = m.live ∧
        (addrs m.live ++ m'.free).Nodup ∧ FSeg st m'.free ∧
        (∀ a < m'.bound, a = n ∨ a ∈ addrs m.live ++ m'.free) ∧ n < m'.bound ∧
        (∀ a ∈ addrs m.live, a < m'.bound) := by
  rw [fresh]
  have hfree := h.free
  have hnd := h.nodup
  cases hf : m.free with
  | cons n r =>
    simp only
    have hfre := h.fre
    rw [hf] at hfree hfre hnd
    have hlt : n < m.bound := free_lt h (by rw [hf]; simp)
    have hnd' : (addrs m.live ++ r).Nodup ∧ n ∉ addrs m.live ∧ n ∉ r := by
      rw [List.nodup_append] at hnd ⊢
      obtain ⟨h1, h2, h3⟩ := hnd
      rw [List.nodup_cons] at h2
      exact ⟨⟨h1, h2.2, fun a ha b hb => h3 a ha b (by simp [hb])⟩, fun hc => h3 n hc n (by simp) rfl, h2.1⟩
    have hne : ∀ k, k ≠ n → (l.storage.set n ⟨p, q, some x⟩)[k]? = l.storage[k]? := by
      intro k hk; rw [List.getElem?_set]; simp [Ne.symm hk]
    refine ⟨l.storage.set n ⟨p, q, some x⟩, r.head?, ?_, ?_, hne, by simp [h.bound], hnd'.2.1, hnd'.2.2, rfl, trivial, hnd'.1, ?_, ?_,
      hlt, fun a ha => addr_lt h ha⟩
    · simp only [allocateBucket, hfree, List.head?_cons, hfre.1]
    · rw [List.getElem?_set]; simp [h.bound, hlt]
    · exact fseg_congr (fun a ha => hne a (fun hc => hnd'.2.2 (hc ▸ ha))) hfre.2
    · intro a ha
      have := h.cover a ha
      rw [hf] at this
      simp at this ⊢
      tauto
  | nil =>
    simp only
    rw [hf] at hfree hnd
    by_cases hc : m.bound < capacity
    · simp only [hc, if_true]
      have hne : ∀ k, k ≠ m.bound → (l.storage ++ [(⟨p, q, some x⟩ : Bucket T)])[k]? = l.storage[k]? := by
        intro k hk
        rw [List.getElem?_append]
        split
        · rfl
        · rename_i hl
          rw [h.bound] at hl
          rw [List.getElem?_eq_none (by simp; rw [h.bound]; omega), List.getElem?_eq_none (by rw [h.bound]; omega)]
      refine ⟨l.storage ++ [⟨p, q, some x⟩], none, ?_, ?_, hne, by simp [h.bound], ?_, by simp, by simp, trivial,
        by simpa [hf] using hnd, by simp [FSeg], ?_, by simp, fun a ha => by have := addr_lt h ha; simp; omega⟩
      · simp only [allocateBucket, hfree, List.head?_nil, h.bound, hc, if_true]
      · rw [List.getElem?_append]; simp [h.bound]
      · intro hm; exact absurd (addr_lt h hm) (by omega)
      · intro a ha
        by_cases hab : a = m.bound
        · exact Or.inl hab
        · have := h.cover a (by omega)
          simp [hf] at this ⊢; exact Or.inr this
    · simp only [hc, if_false]
      simp only [allocateBucket, hfree, List.head?_nil, h.bound, hc, if_false]

theorem upd_some {st : List (Bucket T)} {i : Nat} (hi : i < st.length) (f : Bucket T → Bucket T) :
    ∃ st', upd st i f = some st' ∧ (∀ k, st'[k]? = if k = i then (st[i]?).map f else st[k]?) ∧
      st'.length = st.length := by
  refine ⟨st.modify i f, by simp [upd, hi], fun k => ?_, by simp⟩
  rw [List.getElem?_modify]
  by_cases hk : k = i
  · subst hk; simp
  · simp [hk, Ne.symm hk]

theorem addrs_append (s t : List (Nat × T)) : addrs (s ++ t) = addrs s ++ addrs t := by simp [addrs]
theorem addrs_cons (a : Nat) (x : T) (s : List (Nat × T)) : addrs ((a, x) :: s) = a :: addrs s := rfl

theorem insertAfter_spec {l : L T} {m : Ideal T} (h : Inv l m) {A B : List (Nat × T)} {a : Nat} {v : T}
    (hl : m.live = A ++ (a, v) :: B) (x : T) :
    match fresh m with
    | none => insertAfter l a x = none
    | some (n, m') => ∃ l', insertAfter l a x = some (n, l') ∧
        Inv l' { m' with live := A ++ (a, v) :: (n, x) :: B } := by
  have hseg := h.seg
  rw [hl, seg_append] at hseg
  obtain ⟨hA, ha, hB⟩ := hseg
  have hmem : a ∈ addrs m.live := by rw [hl]; simp [addrs]
  have hin : inBounds l a = true := (inBounds_iff h a).2 hmem
  have hal := allocate_spec h (some a) (hd B none) x
  rcases hfr : fresh m with _ | ⟨n, m'⟩
  · rw [hfr] at hal
    simp only at hal
    simp only [insertAfter, hin, if_true, ha, hal]
  · rw [hfr] at hal
    simp only at hal ⊢
    obtain ⟨st, fr, hal, hn, hne, hlen, hnl, hnf, hfrh, hml, hnd, hfs, hcov, hnb, hab⟩ := hal
    have hnd0 := h.nodup
    rw [hl, addrs_append, addrs_cons] at hnd0
    have hndL : (addrs A ++ a :: addrs B).Nodup := (List.nodup_append.1 hnd0).1
    rw [List.nodup_append, List.nodup_cons] at hndL
    obtain ⟨hnA, ⟨haB, hnB⟩, hdis⟩ := hndL
    have hnA' : n ∉ addrs A := fun hc => hnl (by rw [hl, addrs_append]; simp [hc])
    have hnB' : n ∉ addrs B := fun hc => hnl (by rw [hl, addrs_append, addrs_cons]; simp [hc])
    have hna : n ≠ a := fun hc => hnl (by rw [hc]; exact hmem)
    have haA : a ∉ addrs A := fun hc => hdis a hc a (by simp) rfl
    have hfA : ∀ b ∈ m'.free, b ∉ addrs m.live := by
      intro b hb hc
      exact (List.nodup_append.1 hnd).2.2 b hc b hb rfl
    have hperm : (addrs (A ++ (a, v) :: (n, x) :: B) ++ m'.free).Perm (n :: (addrs m.live ++ m'.free)) := by
      rw [hl]
      simp only [addrs_append, addrs_cons, List.append_assoc, List.cons_append]
      exact ((List.Perm.swap n a _).append_left (addrs A)).trans List.perm_middle
    have hnd' : (addrs (A ++ (a, v) :: (n, x) :: B) ++ m'.free).Nodup := by
      rw [hperm.nodup_iff, List.nodup_cons]
      exact ⟨by simp [hnl, hnf], hnd⟩
    have hcov' : ∀ b < m'.bound, b ∈ addrs (A ++ (a, v) :: (n, x) :: B) ++ m'.free := by
      intro b hb
      rw [hperm.mem_iff, List.mem_cons]
      exact hcov b hb
    have haf : a ∉ m'.free := fun hc => hfA a hc hmem
    cases B with
    | nil =>
      obtain ⟨st2, hu, hst2, hlen2⟩ := upd_some (st := st) (i := a) (by rw [hlen]; exact hab a hmem)
        (fun b => { b with next := some n })
      simp only [hd] at hal hn ha
      refine ⟨_, by simp only [insertAfter, setPreviousOrTail, hin, if_true, ha, hal, hu]; rfl, ?_⟩
      refine ⟨?_, ?_, hnd', hcov', by simp [hlen2, hlen], ?_, ?_, hfrh, ?_⟩
      · simp only
        rw [seg_append]
        refine ⟨?_, ?_, ?_, trivial⟩
        · refine seg_congr (fun b hb => ?_) hA
          rw [hst2, if_neg (by rintro rfl; exact haA hb), hne b (fun hc => hnA' (hc ▸ hb))]
        · rw [hst2, if_pos rfl, hne a (Ne.symm hna), ha]; rfl
        · rw [hst2, if_neg hna, hn]; rfl
      · refine fseg_congr (fun b hb => ?_) hfs
        rw [hst2, if_neg (by rintro rfl; exact haf hb)]
      · have := h.head; rw [hl] at this; simpa using this
      · simp [lst]
      · have := h.size; rw [hl] at this; simp [this]; try omega
    | cons c B =>
      obtain ⟨c, w⟩ := c
      have hcm : c ∈ addrs m.live := by rw [hl]; simp [addrs]
      obtain ⟨st1, hu1, hst1, hlen1⟩ := upd_some (st := st) (i := c) (by rw [hlen]; exact hab c hcm)
        (fun b => { b with previous := some n })
      obtain ⟨st2, hu, hst2, hlen2⟩ := upd_some (st := st1) (i := a) (by rw [hlen1, hlen]; exact hab a hmem)
        (fun b => { b with next := some n })
      simp only [hd] at hal hn ha
      refine ⟨_, by simp only [insertAfter, setPreviousOrTail, hin, if_true, ha, hal, hu1, Option.map_some, hu]; rfl, ?_⟩
      have hac : a ≠ c := fun hc => haB (by simp [addrs, hc])
      have hnc : n ≠ c := fun hc => hnB' (by simp [addrs, hc])
      have hcA : c ∉ addrs A := fun hc => hdis c hc c (by simp [addrs]) rfl
      have hcB : c ∉ addrs B := by rw [addrs_cons, List.nodup_cons] at hnB; exact hnB.1
      refine ⟨?_, ?_, hnd', hcov', by simp [hlen2, hlen1, hlen], ?_, ?_, hfrh, ?_⟩
      · simp only
        rw [seg_append]
        refine ⟨?_, ?_, ?_, ?_, ?_⟩
        · refine seg_congr (fun b hb => ?_) hA
          rw [hst2, if_neg (by rintro rfl; exact haA hb), hst1, if_neg (by rintro rfl; exact hcA hb),
            hne b (fun hc => hnA' (hc ▸ hb))]
        · rw [hst2, if_pos rfl, hst1, if_neg hac, hne a (Ne.symm hna), ha]; rfl
        · rw [hst2, if_neg hna, hst1, if_neg hnc, hn]; rfl
        · rw [hst2, if_neg (Ne.symm hac), hst1, if_pos rfl, hne c (Ne.symm hnc), hB.1]; rfl
        · refine seg_congr (fun b hb => ?_) hB.2
          rw [hst2, if_neg (by rintro rfl; exact haB (by rw [addrs_cons]; simp [hb])), hst1,
            if_neg (by rintro rfl; exact hcB hb), hne b (fun hc => hnB' (by rw [addrs_cons]; simp [← hc, hb]))]
      · refine fseg_congr (fun b hb => ?_) hfs
        rw [hst2, if_neg (by rintro rfl; exact haf hb), hst1, if_neg (by rintro rfl; exact hfA _ hb hcm)]
      · have := h.head; rw [hl] at this; simpa using this
      · have := h.tail; rw [hl] at this; simpa using this
      · have := h.size; rw [hl] at this; simp [this]; try omega

theorem insertBefore_spec {l : L T} {m : Ideal T} (h : Inv l m) {A B : List (Nat × T)} {a : Nat} {v : T}
    (hl : m.live = A ++ (a, v) :: B) (x : T) :
    match fresh m with
    | none => insertBefore l a x = none
    | some (n, m') => ∃ l', insertBefore l a x = some (n, l') ∧
        Inv l' { m' with live := A ++ (n, x) :: (a, v) :: B } := by
  have hseg := h.seg
  rw [hl, seg_append] at hseg
  obtain ⟨hA, ha, hB⟩ := hseg
  have hmem : a ∈ addrs m.live := by rw [hl]; simp [addrs]
  have hin : inBounds l a = true := (inBounds_iff h a).2 hmem
  have hal := allocate_spec h (lst none A) (some a) x
  rcases hfr : fresh m with _ | ⟨n, m'⟩
  · rw [hfr] at hal
    simp only at hal
    simp only [insertBefore, hin, if_true, ha, hal]
  · rw [hfr] at hal
    simp only at hal ⊢
    obtain ⟨st, fr, hal, hn, hne, hlen, hnl, hnf, hfrh, hml, hnd, hfs, hcov, hnb, hab⟩ := hal
    have hnd0 := h.nodup
    rw [hl, addrs_append, addrs_cons] at hnd0
    have hndL : (addrs A ++ a :: addrs B).Nodup := (List.nodup_append.1 hnd0).1
    rw [List.nodup_append, List.nodup_cons] at hndL
    obtain ⟨hnA, ⟨haB, hnB⟩, hdis⟩ := hndL
    have hnA' : n ∉ addrs A := fun hc => hnl (by rw [hl, addrs_append]; simp [hc])
    have hnB' : n ∉ addrs B := fun hc => hnl (by rw [hl, addrs_append, addrs_cons]; simp [hc])
    have hna : n ≠ a := fun hc => hnl (by rw [hc]; exact hmem)
    have haA : a ∉ addrs A := fun hc => hdis a hc a (by simp) rfl
    have hfA : ∀ b ∈ m'.free, b ∉ addrs m.live := by
      intro b hb hc
      exact (List.nodup_append.1 hnd).2.2 b hc b hb rfl
    have hperm : (addrs (A ++ (n, x) :: (a, v) :: B) ++ m'.free).Perm (n :: (addrs m.live ++ m'.free)) := by
      rw [hl]
      simp only [addrs_append, addrs_cons, List.append_assoc, List.cons_append]
      exact List.perm_middle
    have hnd' : (addrs (A ++ (n, x) :: (a, v) :: B) ++ m'.free).Nodup := by
      rw [hperm.nodup_iff, List.nodup_cons]
      exact ⟨by simp [hnl, hnf], hnd⟩
    have hcov' : ∀ b < m'.bound, b ∈ addrs (A ++ (n, x) :: (a, v) :: B) ++ m'.free := by
      intro b hb
      rw [hperm.mem_iff, List.mem_cons]
      exact hcov b hb
    have haf : a ∉ m'.free := fun hc => hfA a hc hmem
    rcases List.eq_nil_or_concat A with rfl | ⟨A, ⟨c, w⟩, rfl⟩
    · obtain ⟨st2, hu, hst2, hlen2⟩ := upd_some (st := st) (i := a) (by rw [hlen]; exact hab a hmem)
        (fun b => { b with previous := some n })
      simp only [lst] at hal hn ha
      refine ⟨_, by simp only [insertBefore, setNextOrHead, hin, if_true, ha, hal, hu]; rfl, ?_⟩
      refine ⟨?_, ?_, hnd', hcov', by simp [hlen2, hlen], ?_, ?_, hfrh, ?_⟩
      · simp only [List.nil_append]
        refine ⟨?_, ?_, ?_⟩
        · rw [hst2, if_neg hna, hn]; rfl
        · rw [hst2, if_pos rfl, hne a (Ne.symm hna), ha]; rfl
        · refine seg_congr (fun b hb => ?_) hB
          rw [hst2, if_neg (by rintro rfl; exact haB hb), hne b (fun hc => hnB' (hc ▸ hb))]
      · refine fseg_congr (fun b hb => ?_) hfs
        rw [hst2, if_neg (by rintro rfl; exact haf hb)]
      · simp [hd]
      · have := h.tail; rw [hl] at this; simpa using this
      · have := h.size; rw [hl] at this; simp [this]; try omega
    · have hcm : c ∈ addrs m.live := by rw [hl]; simp [addrs]
      simp only [List.concat_eq_append, lst_append, lst, List.append_assoc, List.cons_append, List.nil_append] at *
      obtain ⟨st1, hu1, hst1, hlen1⟩ := upd_some (st := st) (i := c) (by rw [hlen]; exact hab c hcm)
        (fun b => { b with next := some n })
      obtain ⟨st2, hu, hst2, hlen2⟩ := upd_some (st := st1) (i := a) (by rw [hlen1, hlen]; exact hab a hmem)
        (fun b => { b with previous := some n })
      refine ⟨_, by simp only [insertBefore, setNextOrHead, hin, if_true, ha, hal, hu1, Option.map_some, hu]; rfl, ?_⟩
      rw [addrs_append] at hnA hnA' haA
      have hca : c ≠ a := fun hc => haA (by simp [addrs, hc])
      have hnc : n ≠ c := fun hc => hnA' (by simp [addrs, hc])
      have hcA : c ∉ addrs A := fun hc => (List.nodup_append.1 hnA).2.2 c hc c (by simp [addrs]) rfl
      have hcB : c ∉ addrs B := fun hc => hdis c (by simp [addrs]) c (by simp [hc]) rfl
      rw [seg_append] at hA
      refine ⟨?_, ?_, hnd', hcov', by simp [hlen2, hlen1, hlen], ?_, ?_, hfrh, ?_⟩
      · simp only
        rw [seg_append]
        refine ⟨?_, ?_, ?_, ?_, ?_⟩
        · refine seg_congr (fun b hb => ?_) hA.1
          rw [hst2, if_neg (by rintro rfl; exact haA (by simp [hb])), hst1, if_neg (by rintro rfl; exact hcA hb),
            hne b (fun hc => hnA' (by simp [← hc, hb]))]
        · rw [hst2, if_neg hca, hst1, if_pos rfl, hne c (Ne.symm hnc), hA.2.1]; rfl
        · rw [hst2, if_neg hna, hst1, if_neg hnc, hn]; rfl
        · rw [hst2, if_pos rfl, hst1, if_neg (Ne.symm hca), hne a (Ne.symm hna), ha]; rfl
        · refine seg_congr (fun b hb => ?_) hB
          rw [hst2, if_neg (by rintro rfl; exact haB hb), hst1, if_neg (by rintro rfl; exact hcB hb),
            hne b (fun hc => hnB' (hc ▸ hb))]
      · refine fseg_congr (fun b hb => ?_) hfs
        rw [hst2, if_neg (by rintro rfl; exact haf hb), hst1, if_neg (by rintro rfl; exact hfA _ hb hcm)]
      · have := h.head; rw [hl] at this; simpa using this
      · have := h.tail; rw [hl] at this; simpa using this
      · have := h.size; rw [hl] at this; simp [this]; try omega

theorem append_empty_spec {l : L T} {m : Ideal T} (h : Inv l m) (hl : m.live = []) (x : T) :
    match fresh m with
    | none => append l x = none
    | some (n, m') => ∃ l', append l x = some (n, l') ∧ Inv l' { m' with live := [(n, x)] } := by
  have hal := allocate_spec h none none x
  have hem : isEmpty l = true := by simp [isEmpty, h.size, hl]
  rcases hfr : fresh m with _ | ⟨n, m'⟩
  · rw [hfr] at hal
    simp only at hal ⊢
    simp only [append, hem, if_true, hal]
  · rw [hfr] at hal
    simp only at hal ⊢
    obtain ⟨st, fr, hal, hn, hne, hlen, hnl, hnf, hfrh, hml, hnd, hfs, hcov, hnb, hab⟩ := hal
    refine ⟨_, by simp only [append, hem, if_true, hal]; rfl, ?_⟩
    rw [hl] at hnd hcov
    refine ⟨⟨by simpa [hd] using hn, trivial⟩, hfs, ?_, ?_, hlen, by simp [hd], by simp [lst], hfrh, by simp⟩
    · simpa [addrs, hnf] using hnd
    · simpa [addrs] using hcov

theorem append_spec {l : L T} {m : Ideal T} (h : Inv l m) (x : T) :
    match fresh m with
    | none => append l x = none
    | some (n, m') => ∃ l', append l x = some (n, l') ∧ Inv l' { m' with live := m.live ++ [(n, x)] } := by
  rcases List.eq_nil_or_concat m.live with hl | ⟨A, ⟨a, v⟩, hl⟩
  · rw [hl]; exact append_empty_spec h hl x
  · rw [List.concat_eq_append] at hl
    have hem : isEmpty l = false := by simp [isEmpty, h.size, hl]
    have ht : l.tail = some a := by rw [h.tail, hl]; simp [lst]
    have := insertAfter_spec h (B := []) hl x
    have heq : append l x = insertAfter l a x := by simp [append, hem, ht]
    rw [heq, hl]
    simpa using this

theorem prepend_spec {l : L T} {m : Ideal T} (h : Inv l m) (x : T) :
    match fresh m with
    | none => prepend l x = none
    | some (n, m') => ∃ l', prepend l x = some (n, l') ∧ Inv l' { m' with live := (n, x) :: m.live } := by
  cases hl : m.live with
  | nil =>
    have hem : isEmpty l = true := by simp [isEmpty, h.size, hl]
    have heq : prepend l x = append l x := by simp [prepend, hem]
    rw [heq]; exact append_empty_spec h hl x
  | cons c B =>
    obtain ⟨a, v⟩ := c
    have hem : isEmpty l = false := by simp [isEmpty, h.size, hl]
    have ht : l.head = some a := by rw [h.head, hl]; simp [hd]
    have := insertBefore_spec h (A := []) hl x
    have heq : prepend l x = insertBefore l a x := by simp [prepend, hem, ht]
    rw [heq]
    simpa using this

theorem inBounds_none {l : L T} {m : Ideal T} (h : Inv l m) {a : Nat} (ha : a ∉ addrs m.live) : inBounds l a = false := by
  rw [Bool.eq_false_iff]; intro hc; exact ha ((inBounds_iff h a).1 hc)

/-- Writing the links of the neighbours when `a` is unlinked. -/
theorem remove_spec {l : L T} {m : Ideal T} (h : Inv l m) {A B : List (Nat × T)} {a : Nat} {v : T}
    (hl : m.live = A ++ (a, v) :: B) :
    ∃ l', remove l a = some (v, l') ∧ Inv l' { m with live := A ++ B, free := a :: m.free } := by
  have hseg := h.seg
  rw [hl, seg_append] at hseg
  obtain ⟨hA, ha, hB⟩ := hseg
  have hmem : a ∈ addrs m.live := by rw [hl]; simp [addrs]
  have hin : inBounds l a = true := (inBounds_iff h a).2 hmem
  have hlt : ∀ b ∈ addrs m.live, b < l.storage.length := fun b hb => by rw [h.bound]; exact addr_lt h hb
  have hnd0 := h.nodup
  rw [hl, addrs_append, addrs_cons] at hnd0
  have hdisF := (List.nodup_append.1 hnd0).2.2
  have hndL : (addrs A ++ a :: addrs B).Nodup := (List.nodup_append.1 hnd0).1
  rw [List.nodup_append, List.nodup_cons] at hndL
  obtain ⟨hnA, ⟨haB, hnB⟩, hdis⟩ := hndL
  have haA : a ∉ addrs A := fun hc => hdis a hc a (by simp) rfl
  have haf : a ∉ m.free := fun hc => hdisF a (by simp) a hc rfl
  have hperm : (addrs (A ++ B) ++ a :: m.free).Perm (addrs m.live ++ m.free) := by
    rw [hl]
    simp only [addrs_append, addrs_cons, List.append_assoc, List.cons_append]
    exact List.perm_middle.append_left _
  have hnd' : (addrs (A ++ B) ++ a :: m.free).Nodup := hperm.nodup_iff.2 h.nodup
  have hcov' : ∀ b < m.bound, b ∈ addrs (A ++ B) ++ a :: m.free := fun b hb => hperm.mem_iff.2 (h.cover b hb)
  -- the first link write
  obtain ⟨st1, hd1, hst1, hlen1, hr1⟩ : ∃ st1 h1,
      setNextOrHead l (lst none A) (hd B none) = some { l with head := h1, storage := st1 } ∧
      st1.length = l.storage.length ∧ h1 = hd (A ++ B) none ∧ Seg st1 none A (hd B none) ∧
      (∀ b, b ∉ addrs A → st1[b]? = l.storage[b]?) := by
    rcases List.eq_nil_or_concat A with rfl | ⟨A, ⟨c, w⟩, rfl⟩
    · exact ⟨l.storage, hd B none, rfl, rfl, rfl, trivial, fun b _ => rfl⟩
    · rw [List.concat_eq_append] at *
      have hcm : c ∈ addrs m.live := by rw [hl]; simp [addrs]
      obtain ⟨st1, hu1, hst1, hlen1⟩ := upd_some (hlt c hcm) (fun c => { c with next := hd B none })
      rw [addrs_append] at hnA
      have hcA : c ∉ addrs A := fun hc => (List.nodup_append.1 hnA).2.2 c hc c (by simp [addrs]) rfl
      rw [seg_append] at hA
      have hh := h.head
      rw [hl] at hh
      refine ⟨st1, l.head, by simp only [setNextOrHead, lst_append, lst_cons, lst_nil, hu1]; rfl, hlen1, by simpa using hh, ?_, ?_⟩
      · rw [seg_append]
        refine ⟨seg_congr (fun b hb => ?_) hA.1, ?_, trivial⟩
        · rw [hst1, if_neg (by rintro rfl; exact hcA hb)]
        · rw [hst1, if_pos rfl, hA.2.1]; rfl
      · intro b hb
        rw [hst1, if_neg (by rintro rfl; exact hb (by simp [addrs]))]
  obtain ⟨hh1, hsA, hun1⟩ := hr1
  obtain ⟨st2, hd2, hst2, hlen2, hr2⟩ : ∃ st2 t2,
      setPreviousOrTail { l with head := hd1, storage := st1 } (hd B none) (lst none A) =
          some { l with head := hd1, tail := t2, storage := st2 } ∧
      st2.length = l.storage.length ∧ t2 = lst none (A ++ B) ∧ Seg st2 (lst none A) B none ∧
      (∀ b, b ∉ addrs B → st2[b]? = st1[b]?) := by
    have hB1 : Seg st1 (some a) B none := seg_congr (fun b hb => hun1 b (by
      intro hc; exact hdis b hc b (by simp [hb]) rfl)) hB
    cases B with
    | nil => exact ⟨st1, lst none A, rfl, hlen1, by simp, trivial, fun b _ => rfl⟩
    | cons c B =>
      obtain ⟨c, w⟩ := c
      have hcm : c ∈ addrs m.live := by rw [hl]; simp [addrs]
      obtain ⟨st2, hu2, hst2, hlen2⟩ := upd_some (st := st1) (i := c) (by rw [hlen1]; exact hlt c hcm)
        (fun c => { c with previous := lst none A })
      have hcB : c ∉ addrs B := by rw [addrs_cons, List.nodup_cons] at hnB; exact hnB.1
      have ht := h.tail
      rw [hl] at ht
      refine ⟨st2, l.tail, by simp only [setPreviousOrTail, hd_cons, hu2]; rfl, by rw [hlen2, hlen1], by simpa using ht, ?_, ?_⟩
      · refine ⟨by rw [hst2, if_pos rfl, hB1.1]; rfl, seg_congr (fun b hb => ?_) hB1.2⟩
        rw [hst2, if_neg (by rintro rfl; exact hcB hb)]
      · intro b hb
        rw [hst2, if_neg (by rintro rfl; exact hb (by simp [addrs]))]
  obtain ⟨hh2, hsB, hun2⟩ := hr2
  obtain ⟨st3, hu3, hst3, hlen3⟩ := upd_some (st := st2) (i := a) (by rw [hlen2]; exact hlt a hmem)
    (fun c => { c with previous := none, next := l.free })
  have ha2 : st2[a]? = some ⟨lst none A, hd B none, some v⟩ := by rw [hun2 a haB, hun1 a haA, ha]
  have ha3 : st3[a]? = some ⟨none, l.free, some v⟩ := by rw [hst3, if_pos rfl, ha2]; rfl
  obtain ⟨st4, hu4, hst4, hlen4⟩ := upd_some (st := st3) (i := a) (by rw [hlen3, hlen2]; exact hlt a hmem)
    (fun c => { c with element := none })
  refine ⟨_, by simp only [remove, hin, if_true, ha, hst1, hst2, hu3, ha3, Option.bind_some, hu4]; rfl, ?_⟩
  have hne : ∀ b, b ≠ a → st4[b]? = st2[b]? := by
    intro b hb; rw [hst4, if_neg hb, hst3, if_neg hb]
  refine ⟨?_, ⟨?_, ?_⟩, hnd', hcov', by simp [hlen4, hlen3, hlen2, h.bound], hh1, hh2, rfl, ?_⟩
  · simp only
    rw [seg_append]
    refine ⟨seg_congr (fun b hb => ?_) hsA, seg_congr (fun b hb => ?_) hsB⟩
    · rw [hne b (by rintro rfl; exact haA hb), hun2 b (by intro hc; exact hdis b hb b (by simp [hc]) rfl)]
    · rw [hne b (by rintro rfl; exact haB hb)]
  · rw [hst4, if_pos rfl, ha3, h.free]; rfl
  · refine fseg_congr (fun b hb => ?_) h.fre
    rw [hne b (by rintro rfl; exact haf hb),
      hun2 b (by intro hc; exact hdisF b (by simp [hc]) b hb rfl),
      hun1 b (by intro hc; exact hdisF b (by simp [hc]) b hb rfl)]
  · have := h.size; rw [hl] at this; simp [this]

theorem assign_spec {l : L T} {m : Ideal T} (h : Inv l m) {A B : List (Nat × T)} {a : Nat} {v : T}
    (hl : m.live = A ++ (a, v) :: B) (x : T) :
    ∃ l', assign l a x = some l' ∧ Inv l' { m with live := A ++ (a, x) :: B } := by
  have hseg := h.seg
  rw [hl, seg_append] at hseg
  obtain ⟨hA, ha, hB⟩ := hseg
  have hmem : a ∈ addrs m.live := by rw [hl]; simp [addrs]
  have hin : inBounds l a = true := (inBounds_iff h a).2 hmem
  have hnd0 := h.nodup
  rw [hl, addrs_append, addrs_cons] at hnd0
  have hdisF := (List.nodup_append.1 hnd0).2.2
  have hndL : (addrs A ++ a :: addrs B).Nodup := (List.nodup_append.1 hnd0).1
  rw [List.nodup_append, List.nodup_cons] at hndL
  obtain ⟨hnA, ⟨haB, hnB⟩, hdis⟩ := hndL
  have haA : a ∉ addrs A := fun hc => hdis a hc a (by simp) rfl
  have haf : a ∉ m.free := fun hc => hdisF a (by simp) a hc rfl
  obtain ⟨st, hu, hst, hlen⟩ := upd_some (st := l.storage) (i := a) (by rw [h.bound]; exact addr_lt h hmem)
    (fun b => { b with element := some x })
  refine ⟨_, by simp only [assign, hin, if_true, hu]; rfl, ?_⟩
  refine ⟨?_, ?_, ?_, ?_, by simp [hlen, h.bound], ?_, ?_, h.free, ?_⟩
  · simp only
    rw [seg_append]
    refine ⟨seg_congr (fun b hb => ?_) hA, ?_, seg_congr (fun b hb => ?_) hB⟩
    · rw [hst, if_neg (by rintro rfl; exact haA hb)]
    · rw [hst, if_pos rfl, ha]; rfl
    · rw [hst, if_neg (by rintro rfl; exact haB hb)]
  · exact fseg_congr (fun b hb => by rw [hst, if_neg (by rintro rfl; exact haf hb)]) h.fre
  · simpa [addrs_append, addrs_cons] using hnd0
  · have := h.cover; rw [hl] at this; simpa [addrs_append, addrs_cons] using this
  · have := h.head; rw [hl] at this; simpa using this
  · have := h.tail; rw [hl] at this; simpa using this
  · have := h.size; rw [hl] at this; simpa using this

theorem new_inv : Inv (new : L T) ⟨[], [], 0⟩ := by
  refine ⟨trivial, trivial, by simp [addrs], by simp, rfl, rfl, rfl, rfl, rfl⟩

/-- The bucket of a live element. -/
theorem bucket_of_split {l : L T} {m : Ideal T} (h : Inv l m) {A B : List (Nat × T)} {a : Nat} {v : T}
    (hl : m.live = A ++ (a, v) :: B) :
    inBounds l a = true ∧ l.storage[a]? = some ⟨lst none A, hd B none, some v⟩ := by
  have hseg := h.seg
  rw [hl, seg_append] at hseg
  exact ⟨(inBounds_iff h a).2 (by rw [hl]; simp [addrs]), hseg.2.1⟩

end Ferlium.LinkedList
