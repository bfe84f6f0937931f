import Verif.Model.Array
import Mathlib.Data.List.Basic
import Mathlib.Data.List.Perm.Subperm
import Mathlib.Data.List.Nodup
import Mathlib.Tactic.SplitIfs

/-! Helper lemmas for the circular-buffer array: representation relation and its preservation. -/
namespace Ferlium.Arr

/-- Logical offset of physical slot `p` in a buffer of `n` slots whose first element is in slot `s`. -/
def off (n s p : Nat) : Nat := if s ≤ p then p - s else p + n - s

/-- `a` represents the list `xs`: slot `p` owns the element at logical offset `off p`, and owns nothing when
that offset is outside the list. -/
structure Rep {α : Type} (a : Arr α) (xs : List α) : Prop where
  cap : a.capacity = a.data.length
  len : a.len = xs.length
  fits : xs.length ≤ a.data.length
  start_nonneg : 0 ≤ a.start
  start_lt : a.start < a.data.length ∨ a.start = 0
  slots : ∀ p, p < a.data.length → a.data[p]? = some (xs[off a.data.length a.start.toNat p]?)

theorem wrap_phys {n s i : Nat} (hs : s < n) (hi : i < n) :
    ∃ p : Nat, wrapIndex (n : Int) ((s : Int) + i) = p ∧ p < n ∧ off n s p = i := by
  unfold wrapIndex off
  by_cases h : (s : Int) + i ≥ n
  · refine ⟨s + i - n, ?_, by omega, ?_⟩
    · rw [if_pos h]; omega
    · rw [if_neg (by omega)]; omega
  · refine ⟨s + i, ?_, by omega, ?_⟩
    · rw [if_neg h]; omega
    · rw [if_pos (by omega)]; omega

theorem off_inj {n s p q : Nat} (hs : s < n) (hp : p < n) (hq : q < n) (h : off n s p = off n s q) : p = q := by
  unfold off at h; split_ifs at h <;> omega

theorem off_lt {n s p : Nat} (hs : s < n) (hp : p < n) : off n s p < n := by
  unfold off; split_ifs <;> omega

variable {α : Type}

theorem slotRead_nat (d : List (Option α)) (p : Nat) (x : α) (h : d[p]? = some (some x)) :
    slotRead d (p : Int) = .ok x := by
  unfold slotRead
  simp [h]

theorem slotTake_nat (d : List (Option α)) (p : Nat) (x : α) (h : d[p]? = some (some x)) :
    slotTake d (p : Int) = .ok (x, d.set p none) := by
  unfold slotTake
  simp [h]

theorem slotInit_nat (d : List (Option α)) (p : Nat) (x : α) (h : d[p]? = some none) :
    slotInit d (p : Int) x = .ok (d.set p (some x)) := by
  unfold slotInit
  simp [h]

theorem slotAssign_nat (d : List (Option α)) (p : Nat) (x y : α) (h : d[p]? = some (some y)) :
    slotAssign d (p : Int) x = .ok (d.set p (some x)) := by
  unfold slotAssign
  simp [h]

theorem Rep.start_lt' {a : Arr α} {xs : List α} (h : Rep a xs) (hn : 0 < a.data.length) :
    a.start.toNat < a.data.length := by
  have := h.start_lt; have := h.start_nonneg; omega

theorem Rep.start_cast {a : Arr α} {xs : List α} (h : Rep a xs) : (a.start.toNat : Int) = a.start := by
  have := h.start_nonneg; omega

/-- Physical position of logical offset `i`. -/
theorem Rep.phys {a : Arr α} {xs : List α} (h : Rep a xs) {i : Nat} (hi : i < a.data.length) :
    ∃ p : Nat, wrapIndex a.capacity (a.start + i) = p ∧ p < a.data.length ∧
      off a.data.length a.start.toNat p = i := by
  have := wrap_phys (h.start_lt' (by omega)) hi
  rwa [h.start_cast, ← h.cap] at this

theorem Rep.read {a : Arr α} {xs : List α} (h : Rep a xs) {i : Nat} (hi : i < xs.length) :
    slotRead a.data (wrapIndex a.capacity (a.start + i)) = .ok xs[i] := by
  obtain ⟨p, hp, hlt, ho⟩ := h.phys (i := i) (by have := h.fits; omega)
  rw [hp]
  apply slotRead_nat
  rw [h.slots p hlt, ho]; simp [hi]

theorem rep_withCapacity (c : Int) : Rep (withCapacity c : Arr α) [] := by
  unfold withCapacity bufferWithCapacity
  constructor
  · simp; split_ifs <;> omega
  · simp
  · simp
  · simp
  · simp
  · intro p hp
    simp at hp
    simp [hp]

theorem length_slotInit {d d' : List (Option α)} {i : Int} {x : α} (h : slotInit d i x = .ok d') :
    d'.length = d.length := by
  unfold slotInit at h
  split_ifs at h
  split at h <;> simp at h
  rw [← h]; simp

/-- Invariant of the moving loop. -/
theorem moveLoop_spec {n s m : Nat} (hs : s < n ∨ n = 0) (xs : List α) (hx : xs.length ≤ n) (hm : xs.length ≤ m) :
    ∀ (k i : Nat) (src dst : List (Option α)), i + k = xs.length →
      src.length = n → dst.length = m →
      (∀ p, p < n → src[p]? = some (if off n s p < i then none else xs[off n s p]?)) →
      (∀ j, j < m → dst[j]? = some (if j < i then xs[j]? else none)) →
      ∃ src' dst', moveLoop (n : Int) (s : Int) k (i : Int) src dst = .ok (src', dst') ∧
        src'.length = n ∧ dst'.length = m ∧
        (∀ p, p < n → src'[p]? = some none) ∧ (∀ j, j < m → dst'[j]? = some (xs[j]?)) := by
  intro k
  induction k with
  | zero =>
    intro i src dst hik hsl hdl hsrc hdst
    refine ⟨src, dst, rfl, hsl, hdl, ?_, ?_⟩
    · intro p hp
      rw [hsrc p hp]
      split_ifs with h
      · rfl
      · congr 1; simp; omega
    · intro j hj
      rw [hdst j hj]
      split_ifs with h
      · rfl
      · congr 1; symm; simp; omega
  | succ k ih =>
    intro i src dst hik hsl hdl hsrc hdst
    have hin : i < n := by omega
    have hsn : s < n := by omega
    have hix : i < xs.length := by omega
    obtain ⟨p, hp, hpn, ho⟩ := wrap_phys hsn hin
    have htake : slotTake src (p : Int) = .ok (xs[i], src.set p none) := by
      apply slotTake_nat
      rw [hsrc p hpn, ho]; simp [hix]
    have hinit : slotInit dst (i : Int) xs[i] = .ok (dst.set i (some xs[i])) := by
      apply slotInit_nat
      rw [hdst i (by omega)]; simp
    obtain ⟨src', dst', hrun, h1, h2, h3, h4⟩ :=
      ih (i + 1) (src.set p none) (dst.set i (some xs[i])) (by omega) (by simp [hsl]) (by simp [hdl])
        (by
          intro q hq
          rw [List.getElem?_set]
          by_cases hqp : p = q
          · subst hqp
            simp [hsl, hpn, ho]
          · rw [if_neg hqp, hsrc q hq]
            have : off n s q ≠ i := fun h => hqp (off_inj hsn hpn hq (by rw [ho, h]))
            by_cases hlt : off n s q < i
            · rw [if_pos hlt, if_pos (by omega)]
            · rw [if_neg hlt, if_neg (by omega)])
        (by
          intro j hj
          rw [List.getElem?_set]
          by_cases hji : i = j
          · subst hji
            simp [hdl, hj, hix]
          · rw [if_neg hji, hdst j hj]
            by_cases hlt : j < i
            · rw [if_pos hlt, if_pos (by omega)]
            · rw [if_neg hlt, if_neg (by omega)])
    refine ⟨src', dst', ?_, h1, h2, h3, h4⟩
    rw [moveLoop, hp, htake]
    simp only [bind, Except.bind]
    rw [hinit]
    simp only []
    rw [show ((i : Int) + 1) = ((i + 1 : Nat) : Int) by push_cast; rfl]
    exact hrun

theorem rep_ensureCapacity {a : Arr α} {xs : List α} (h : Rep a xs) (len : Int) :
    ∃ b, ensureCapacity a len = .ok b ∧ Rep b xs ∧ len ≤ b.data.length := by
  unfold ensureCapacity
  by_cases hc : a.capacity ≥ len
  · rw [if_pos hc]
    exact ⟨a, rfl, h, by have := h.cap; omega⟩
  · rw [if_neg hc]
    simp only []
    generalize hcd : (if a.capacity ≤ 0 then (1 : Int) else a.capacity * 2) = c1
    generalize hce : (if c1 < len then len else c1) = c2
    have hcap := h.cap
    have hfits := h.fits
    have hc2 : len ≤ c2 ∧ a.capacity ≤ c2 ∧ 0 < c2 := by
      split_ifs at hcd hce <;> omega
    have hm : xs.length ≤ c2.toNat := by omega
    have hl : a.len.toNat = xs.length := by have := h.len; omega
    have hsn : a.start.toNat < a.data.length ∨ a.data.length = 0 := by
      have := h.start_lt; have := h.start_nonneg; omega
    obtain ⟨src', dst', hrun, h1, h2, h3, h4⟩ :=
      moveLoop_spec hsn xs hfits hm xs.length 0 a.data (bufferWithCapacity c2) (by omega) rfl
        (by simp [bufferWithCapacity])
        (by intro p hp; rw [h.slots p hp]; simp)
        (by intro j hj; simp [bufferWithCapacity, hj])
    have hrun' : moveLoop a.capacity a.start a.len.toNat 0 a.data (bufferWithCapacity c2)
        = .ok (src', dst') := by
      rw [hl, hcap, ← h.start_cast]; exact_mod_cast hrun
    rw [hrun']
    simp only [bind, Except.bind]
    have hall : src'.all Option.isNone = true := by
      rw [List.all_eq_true]
      intro x hx
      obtain ⟨p, hp, rfl⟩ := List.mem_iff_getElem.mp hx
      have := h3 p (by omega)
      rw [List.getElem?_eq_getElem hp] at this
      simpa using this
    rw [if_pos hall]
    refine ⟨_, rfl, ?_, by simp; omega⟩
    constructor
    · simp; omega
    · exact h.len
    · simp; omega
    · simp
    · simp
    · intro p hp
      simp only [h2] at hp ⊢
      rw [h4 p hp]
      simp [off]

theorem rep_append {a : Arr α} {xs : List α} (h : Rep a xs) (x : α) :
    ∃ b, append a x = .ok b ∧ Rep b (xs ++ [x]) := by
  obtain ⟨b, hb, hr, hlen⟩ := rep_ensureCapacity h (a.len + 1)
  have hl := h.len
  have hlb := hr.len
  have hlt : xs.length < b.data.length := by omega
  obtain ⟨p, hp, hpn, ho⟩ := hr.phys hlt
  have hs := hr.start_lt' (by omega)
  have hinit : slotInit b.data (p : Int) x = .ok (b.data.set p (some x)) := by
    apply slotInit_nat; rw [hr.slots p hpn, ho]; simp
  unfold append
  rw [hb]
  simp only [bind, Except.bind]
  rw [hlb, hp, hinit]
  refine ⟨_, rfl, ?_⟩
  constructor
  · simp [hr.cap]
  · simp
  · simp; omega
  · exact hr.start_nonneg
  · simpa using hr.start_lt
  · intro q hq
    simp only [List.length_set] at hq ⊢
    rw [List.getElem?_set]
    by_cases hqp : p = q
    · subst hqp
      simp [hpn, ho]
    · rw [if_neg hqp, hr.slots q hq]
      have hne : off b.data.length b.start.toNat q ≠ xs.length :=
        fun h => hqp (off_inj hs hpn hq (by rw [ho, h]))
      congr 1
      rw [List.getElem?_append]
      split_ifs with h1
      · rfl
      · rw [List.getElem?_eq_none (by omega), List.getElem?_eq_none (by simp; omega)]

theorem rep_prepend {a : Arr α} {xs : List α} (h : Rep a xs) (x : α) :
    ∃ b, prepend a x = .ok b ∧ Rep b (x :: xs) := by
  obtain ⟨b, hb, hr, hlen⟩ := rep_ensureCapacity h (a.len + 1)
  have hl := h.len
  have hlb := hr.len
  have hcap := hr.cap
  have hlt : xs.length < b.data.length := by omega
  have hs := hr.start_lt' (by omega)
  have hsc := hr.start_cast
  obtain ⟨s', hs', hs'lt, hdef⟩ : ∃ s' : Nat,
      (if b.capacity > 0 then (if b.start ≤ 0 then b.capacity - 1 else b.start - 1) else b.start) = s' ∧
      s' < b.data.length ∧ ((b.start.toNat = 0 ∧ s' = b.data.length - 1) ∨ (s' + 1 = b.start.toNat)) := by
    rw [if_pos (by omega)]
    by_cases h0 : b.start ≤ 0
    · rw [if_pos h0]; exact ⟨b.data.length - 1, by omega, by omega, by omega⟩
    · rw [if_neg h0]; exact ⟨b.start.toNat - 1, by omega, by omega, by omega⟩
  have hoff : off b.data.length b.start.toNat s' = b.data.length - 1 := by
    unfold off; split_ifs <;> omega
  have hinit : slotInit b.data (s' : Int) x = .ok (b.data.set s' (some x)) := by
    apply slotInit_nat; rw [hr.slots s' hs'lt, hoff]
    congr 1; simp; omega
  unfold prepend
  rw [hb]
  simp only [bind, Except.bind]
  rw [hs', hinit]
  refine ⟨_, rfl, ?_⟩
  constructor
  · simp [hr.cap]
  · simp; omega
  · simp; omega
  · simp
  · simp; omega
  · intro q hq
    simp only [List.length_set] at hq ⊢
    rw [List.getElem?_set]
    by_cases hqp : s' = q
    · subst hqp
      simp [hs'lt, off]
    · rw [if_neg hqp, hr.slots q hq]
      have : off b.data.length (s' : Int).toNat q = off b.data.length b.start.toNat q + 1 := by
        unfold off; split_ifs <;> omega
      rw [this]; simp

theorem rep_popBack {a : Arr α} {xs : List α} (h : Rep a xs) :
    ∃ b, popBack a = .ok (xs.getLast?, b) ∧ Rep b xs.dropLast := by
  have hl := h.len
  unfold popBack
  by_cases h0 : a.len ≤ 0
  · rw [if_pos h0]
    have : xs = [] := List.length_eq_zero_iff.mp (by omega)
    subst this
    exact ⟨a, rfl, h⟩
  · rw [if_neg h0]
    have hfits := h.fits
    have hlt : xs.length - 1 < a.data.length := by omega
    obtain ⟨p, hp, hpn, ho⟩ := h.phys hlt
    have hs := h.start_lt' (by omega)
    have htake : slotTake a.data (p : Int) = .ok (xs[xs.length - 1]'(by omega), a.data.set p none) := by
      apply slotTake_nat; rw [h.slots p hpn, ho]
      rw [List.getElem?_eq_getElem (by omega)]
    have hphys : physicalOffset a (a.len - 1) = p := by
      unfold physicalOffset; rw [← hp]; congr 2; omega
    simp only [hphys, htake, bind, Except.bind]
    have hne : xs ≠ [] := by intro h; subst h; simp at hl; omega
    refine ⟨_, by rw [List.getLast?_eq_getElem?, List.getElem?_eq_getElem (by omega)], ?_⟩
    constructor
    · simp [h.cap]
    · simp; omega
    · simp; omega
    · exact h.start_nonneg
    · simpa using h.start_lt
    · intro q hq
      simp only [List.length_set] at hq ⊢
      rw [List.getElem?_set]
      by_cases hqp : p = q
      · subst hqp
        simp only [if_true, hpn, ho]
        congr 1; symm; simp
      · rw [if_neg hqp, h.slots q hq]
        have hne : off a.data.length a.start.toNat q ≠ xs.length - 1 :=
          fun h => hqp (off_inj hs hpn hq (by rw [ho, h]))
        congr 1
        rw [List.getElem?_dropLast]
        split_ifs with h1
        · rfl
        · exact List.getElem?_eq_none (by omega)

theorem rep_popFront {a : Arr α} {xs : List α} (h : Rep a xs) :
    ∃ b, popFront a = .ok (xs.head?, b) ∧ Rep b xs.tail := by
  have hl := h.len
  unfold popFront
  by_cases h0 : a.len ≤ 0
  · rw [if_pos h0]
    have : xs = [] := List.length_eq_zero_iff.mp (by omega)
    subst this
    exact ⟨a, rfl, h⟩
  · rw [if_neg h0]
    have hfits := h.fits
    have hcap := h.cap
    have hs := h.start_lt' (by omega)
    have hsc := h.start_cast
    match xs, h with
    | [], _ => simp at hl; omega
    | x :: xs, h =>
      have htake : slotTake a.data a.start = .ok (x, a.data.set a.start.toNat none) := by
        have := slotTake_nat a.data a.start.toNat x (by rw [h.slots _ hs]; simp [off])
        rwa [hsc] at this
      simp only [htake, bind, Except.bind]
      refine ⟨_, rfl, ?_⟩
      simp only [List.length_cons] at hl hfits
      constructor
      · simp [h.cap]
      · simp; omega
      · simp; omega
      · simp only []; split_ifs <;> omega
      · simp only [List.length_set]; split_ifs <;> omega
      · intro q hq
        simp only [List.length_set, List.tail_cons] at hq ⊢
        rw [List.getElem?_set]
        by_cases hqp : a.start.toNat = q
        · subst hqp
          rw [if_pos rfl, if_pos hs]
          congr 1; symm
          apply List.getElem?_eq_none
          unfold off
          split_ifs <;> omega
        · rw [if_neg hqp, h.slots q hq]
          congr 1
          by_cases hx : a.len - 1 ≤ 0
          · have : xs = [] := List.length_eq_zero_iff.mp (by omega)
            subst this
            simp only [List.getElem?_nil]
            apply List.getElem?_eq_none
            unfold off
            simp only [List.length_cons, List.length_nil]
            split_ifs <;> omega
          · rw [if_neg hx]
            have : off a.data.length a.start.toNat q
                = off a.data.length (if a.start + 1 ≥ a.capacity then (0 : Int) else a.start + 1).toNat q + 1 := by
              unfold off; split_ifs <;> omega
            rw [this]; simp

theorem rep_index {a : Arr α} {xs : List α} (h : Rep a xs) (i : Int) :
    index a i = if i < 0 then
        (if h1 : -i ≤ xs.length ∧ i < 0 then .ok (xs[((xs.length : Int) + i).toNat]'(by omega)) else .error .indexPanic)
      else (if h2 : i.toNat < xs.length then .ok xs[i.toNat] else .error .indexPanic) := by
  have hl := h.len
  unfold index resolveIndex signedIndexToOffset
  by_cases hneg : i < 0
  · rw [if_pos hneg, if_pos hneg]
    by_cases hb : -i ≤ xs.length
    · rw [dif_pos ⟨hb, hneg⟩, if_neg (by omega)]
      have := h.read (i := ((xs.length : Int) + i).toNat) (by omega)
      rw [← this]
      simp only [bind, Except.bind]
      congr 3
      omega
    · rw [dif_neg (by omega), if_pos (by omega)]; rfl
  · rw [if_neg hneg, if_neg hneg]
    by_cases hb : i.toNat < xs.length
    · rw [dif_pos hb, if_neg (by omega)]
      have := h.read (i := i.toNat) hb
      rw [← this]
      simp only [bind, Except.bind]
      congr 3
      omega
    · rw [dif_neg hb, if_pos (by omega)]; rfl

theorem rep_assign_nat {a : Arr α} {xs : List α} (h : Rep a xs) {i : Nat} (hi : i < xs.length) (x : α) :
    ∃ d, slotAssign a.data (wrapIndex a.capacity (a.start + i)) x = .ok d ∧
      Rep { a with data := d } (xs.set i x) := by
  have hfits := h.fits
  obtain ⟨p, hp, hpn, ho⟩ := h.phys (i := i) (by omega)
  have hs := h.start_lt' (by omega)
  rw [hp]
  refine ⟨_, slotAssign_nat a.data p x xs[i] (by rw [h.slots p hpn, ho]; simp [hi]), ?_⟩
  constructor
  · simp [h.cap]
  · simp [h.len]
  · simp; omega
  · exact h.start_nonneg
  · simpa using h.start_lt
  · intro q hq
    simp only [List.length_set] at hq ⊢
    rw [List.getElem?_set, List.getElem?_set]
    by_cases hqp : p = q
    · subst hqp; simp [hpn, ho, hi]
    · rw [if_neg hqp, h.slots q hq]
      have hne : i ≠ off a.data.length a.start.toNat q :=
        fun h => hqp (off_inj hs hpn hq (by rw [ho, h]))
      rw [if_neg hne]

theorem rep_copyLoop {a : Arr α} {xs : List α} (h : Rep a xs) :
    ∀ (n i : Nat) (t : Arr α) (ys : List α), Rep t ys → t.start = 0 → i + n ≤ xs.length →
      ys.length + n ≤ t.data.length →
      ∃ b, copyLoop a n (i : Int) t = .ok b ∧ Rep b (ys ++ (xs.drop i).take n) ∧ b.start = 0 ∧
        b.data.length = t.data.length := by
  intro n
  induction n with
  | zero => intro i t ys ht hs _ _; exact ⟨t, rfl, by simpa using ht, hs, rfl⟩
  | succ n ih =>
    intro i t ys ht hs hi hn
    have hix : i < xs.length := by omega
    have htl := ht.len
    have hread := h.read hix
    have hinit : slotInit t.data t.len xs[i] = .ok (t.data.set ys.length (some xs[i])) := by
      rw [htl]; apply slotInit_nat; rw [ht.slots _ (by omega), hs]; simp [off]
    have hrep : Rep { t with data := t.data.set ys.length (some xs[i]), len := t.len + 1 } (ys ++ [xs[i]]) := by
      constructor
      · simp [ht.cap]
      · simp; omega
      · simp; omega
      · exact ht.start_nonneg
      · simp [hs]
      · intro q hq
        simp only [List.length_set] at hq ⊢
        rw [List.getElem?_set, hs]
        by_cases hqp : ys.length = q
        · subst hqp; simp [hq, off]
        · rw [if_neg hqp, ht.slots q hq, hs]
          congr 1
          simp only [Int.toNat_zero, off, Nat.zero_le, if_true, Nat.sub_zero]
          rw [List.getElem?_append]
          split_ifs with h1
          · rfl
          · rw [List.getElem?_eq_none (by omega), List.getElem?_eq_none (by simp; omega)]
    obtain ⟨b, hb, hr, hs', hl'⟩ := ih (i + 1) _ _ hrep hs (by omega) (by simp; omega)
    refine ⟨b, ?_, ?_, hs', by simpa using hl'⟩
    · rw [copyLoop]
      unfold physicalOffset
      rw [hread]
      simp only [bind, Except.bind]
      rw [hinit]
      simp only []
      rw [show ((i : Int) + 1) = ((i + 1 : Nat) : Int) by push_cast; rfl]
      exact hb
    · have : (xs.drop i).take (n + 1) = xs[i] :: (xs.drop (i + 1)).take n := by
        rw [List.drop_eq_getElem_cons hix]; rfl
      rw [this]
      simpa using hr

theorem withCapacity_length (c : Int) : (withCapacity c : Arr α).data.length = c.toNat := by
  unfold withCapacity bufferWithCapacity; simp; split_ifs <;> omega

theorem rep_clone {a : Arr α} {xs : List α} (h : Rep a xs) : ∃ b, clone a = .ok b ∧ Rep b xs := by
  have hl := h.len
  obtain ⟨b, hb, hr, _⟩ := rep_copyLoop h xs.length 0 (withCapacity a.len) [] (rep_withCapacity _) rfl (by omega)
    (by rw [withCapacity_length]; simp; omega)
  refine ⟨b, ?_, by simpa using hr⟩
  unfold clone
  rw [show a.len.toNat = xs.length by omega]
  exact_mod_cast hb

theorem rep_concat {a b : Arr α} {xs ys : List α} (ha : Rep a xs) (hb : Rep b ys) :
    ∃ c, concat a b = .ok c ∧ Rep c (xs ++ ys) := by
  have hla := ha.len
  have hlb := hb.len
  have hw := withCapacity_length (α := α) (a.len + b.len)
  obtain ⟨c, hc, hr, hs, hl⟩ := rep_copyLoop ha xs.length 0 (withCapacity (a.len + b.len)) [] (rep_withCapacity _)
    rfl (by omega) (by rw [hw]; simp; omega)
  obtain ⟨d, hd, hr', _⟩ := rep_copyLoop hb ys.length 0 c _ hr hs (by omega) (by rw [hl, hw]; simp; omega)
  refine ⟨d, ?_, by simpa using hr'⟩
  unfold concat
  rw [show a.len.toNat = xs.length by omega, show b.len.toNat = ys.length by omega]
  have hc' : copyLoop a xs.length 0 (withCapacity (a.len + b.len)) = .ok c := by exact_mod_cast hc
  rw [hc']
  exact_mod_cast hd

theorem rep_slice {a : Arr α} {xs : List α} (h : Rep a xs) (s e : Int) :
    ∃ b, slice a s e = .ok b ∧
      Rep b ((xs.take (sliceBound xs.length e).toNat).drop (sliceBound xs.length s).toNat) := by
  have hl := h.len
  unfold slice
  rw [hl]
  have hbnd : ∀ i : Int, 0 ≤ sliceBound xs.length i ∧ sliceBound xs.length i ≤ xs.length := by
    intro i; unfold sliceBound signedIndexToOffset; simp only []; split_ifs <;> omega
  have hs := hbnd s
  have he := hbnd e
  generalize sliceBound xs.length s = s' at *
  generalize sliceBound xs.length e = e' at *
  simp only []
  by_cases hlt : e' > s'
  · rw [if_pos hlt]
    obtain ⟨b, hb, hr, _⟩ := rep_copyLoop h (e' - s').toNat s'.toNat (withCapacity (e' - s')) [] (rep_withCapacity _)
      rfl (by omega) (by rw [withCapacity_length]; simp)
    refine ⟨b, by rw [← hb]; congr 1; omega, ?_⟩
    rw [List.drop_take]
    rw [show e'.toNat - s'.toNat = (e' - s').toNat by omega]
    simpa using hr
  · rw [if_neg hlt]
    refine ⟨_, rfl, ?_⟩
    rw [List.drop_eq_nil_of_le (by simp; omega)]
    exact rep_withCapacity _

theorem rep_dropLoop : ∀ (n : Nat) (a : Arr α) (xs : List α), Rep a xs → n = xs.length →
    ∃ b, dropLoop n a = .ok (xs.reverse, b) ∧ Rep b [] ∧ b.data.length = a.data.length := by
  intro n
  induction n with
  | zero =>
    intro a xs h hn
    have : xs = [] := List.length_eq_zero_iff.mp hn.symm
    subst this
    exact ⟨a, rfl, h, rfl⟩
  | succ n ih =>
    intro a xs h hn
    have hl := h.len
    obtain ⟨b, hb, hr⟩ := rep_popBack h
    unfold popBack at hb
    rw [if_neg (by omega)] at hb
    simp only [] at hb
    rcases htk : slotTake a.data (physicalOffset a (a.len - 1)) with err | ⟨x, d⟩
    · rw [htk] at hb; simp [bind, Except.bind] at hb
    · rw [htk] at hb
      simp only [bind, Except.bind, Except.ok.injEq, Prod.mk.injEq] at hb
      obtain ⟨hx, hb⟩ := hb
      have hdl : d.length = a.data.length := by
        unfold slotTake at htk
        split_ifs at htk
        split at htk <;> simp at htk
        rw [← htk.2]; simp
      obtain ⟨c, hc, hrc, hlc⟩ := ih b xs.dropLast hr (by simp; omega)
      refine ⟨c, ?_, hrc, by rw [hlc, ← hb]; exact hdl⟩
      rw [dropLoop, htk]
      simp only [bind, Except.bind]
      rw [hb, hc]
      simp only []
      have hne : xs ≠ [] := by intro h; subst h; simp at hn
      congr 2
      rw [List.getLast?_eq_some_getLast hne] at hx
      have hxx : x = xs.getLast hne := by simpa using hx
      conv_rhs => rw [← List.dropLast_append_getLast hne]
      simp [hxx]

end Ferlium.Arr

namespace Ferlium.Arr
variable {α : Type}

theorem Rep.offsetRead {a : Arr α} {xs : List α} (h : Rep a xs) {i : Nat} (hi : i < xs.length) :
    offsetRead a i = .ok xs[i] := h.read hi

theorem Rep.eqLoop (eq : α → α → Bool) {a b : Arr α} {xs ys : List α} (ha : Rep a xs) (hb : Rep b ys)
    (hl : xs.length = ys.length) : ∀ n i : Nat, i + n = xs.length →
      Arr.eqLoop eq a b n i = .ok (List.isEqv (xs.drop i) (ys.drop i) eq) := by
  intro n
  induction n with
  | zero =>
    intro i hi
    rw [List.drop_eq_nil_of_le (by omega), List.drop_eq_nil_of_le (by omega)]
    rfl
  | succ n ih =>
    intro i hi
    have h1 : i < xs.length := by omega
    have h2 : i < ys.length := by omega
    rw [Arr.eqLoop, ha.offsetRead h1, hb.offsetRead h2]
    simp only [bind, Except.bind]
    rw [List.drop_eq_getElem_cons h1, List.drop_eq_getElem_cons h2, List.isEqv_cons_cons]
    by_cases he : eq xs[i] ys[i] = true
    · rw [if_pos he, he, Bool.true_and]
      exact_mod_cast ih (i + 1) (by omega)
    · rw [if_neg he]; simp [he]

theorem Rep.arrEq (eq : α → α → Bool) {a b : Arr α} {xs ys : List α} (ha : Rep a xs) (hb : Rep b ys) :
    arrEq eq a b = .ok (List.isEqv xs ys eq) := by
  have h1 := ha.len
  have h2 := hb.len
  unfold Arr.arrEq
  by_cases hl : xs.length = ys.length
  · rw [if_neg (by omega), show a.len.toNat = xs.length by omega]
    have := Rep.eqLoop eq ha hb hl xs.length 0 (by omega)
    simpa using this
  · rw [if_pos (by omega)]
    congr 1; symm
    rw [Bool.eq_false_iff]
    intro h
    rw [List.isEqv_eq_decide] at h
    simp at h
    exact hl h.1

theorem Rep.hashLoop {σ : Type} (hash : α → σ → σ) {a : Arr α} {xs : List α} (ha : Rep a xs) :
    ∀ (n i : Nat) (s : σ), i + n = xs.length →
      Arr.hashLoop hash a n i s = .ok ((xs.drop i).foldl (fun s x => hash x s) s) := by
  intro n
  induction n with
  | zero => intro i s hi; rw [List.drop_eq_nil_of_le (by omega)]; rfl
  | succ n ih =>
    intro i s hi
    have h1 : i < xs.length := by omega
    rw [Arr.hashLoop, ha.offsetRead h1]
    simp only [bind, Except.bind]
    rw [List.drop_eq_getElem_cons h1, List.foldl_cons]
    exact_mod_cast ih (i + 1) _ (by omega)

theorem Rep.arrHash {σ : Type} (w : Int → σ → σ) (hash : α → σ → σ) {a : Arr α} {xs : List α}
    (ha : Rep a xs) (s : σ) :
    arrHash w hash a s = .ok (xs.foldl (fun s x => hash x s) (w xs.length s)) := by
  have h1 := ha.len
  unfold Arr.arrHash
  rw [show a.len.toNat = xs.length by omega, h1]
  simpa using Rep.hashLoop hash ha xs.length 0 (w xs.length s) (by omega)

theorem rep_fromItems : ∀ (items : List α) (a : Arr α) (xs : List α), Rep a xs →
    ∃ b, fromItems items a = .ok b ∧ Rep b (xs ++ items) := by
  intro items
  induction items with
  | nil => intro a xs h; exact ⟨a, rfl, by simpa using h⟩
  | cons x items ih =>
    intro a xs h
    obtain ⟨b, hb, hr⟩ := rep_append h x
    obtain ⟨c, hc, hr'⟩ := ih b _ hr
    refine ⟨c, ?_, by simpa using hr'⟩
    rw [fromItems, hb]; exact hc

theorem map_off_perm {n s : Nat} (hs : s < n) : ((List.range n).map (off n s)).Perm (List.range n) := by
  apply List.Perm.symm
  apply List.Subperm.perm_of_length_le
  · apply List.subperm_of_subset List.nodup_range
    intro i hi
    rw [List.mem_range] at hi
    rw [List.mem_map]
    obtain ⟨p, _, hp, ho⟩ := wrap_phys hs hi
    exact ⟨p, List.mem_range.mpr hp, ho⟩
  · simp

theorem filterMap_range_getElem? (xs : List α) : ∀ n, xs.length ≤ n →
    (List.range n).filterMap (fun i => xs[i]?) = xs := by
  induction xs with
  | nil => intro n _; simp
  | cons x xs ih =>
    intro n hn
    match n with
    | n + 1 =>
      rw [List.range_succ_eq_map, List.filterMap_cons]
      simp only [List.getElem?_cons_zero]
      congr 1
      rw [List.filterMap_map]
      exact ih n (by simpa using hn)

theorem Rep.owned {a : Arr α} {xs : List α} (h : Rep a xs) : (a.data.filterMap id).Perm xs := by
  have hd : a.data = (List.range a.data.length).map (fun p => xs[off a.data.length a.start.toNat p]?) := by
    apply List.ext_getElem?
    intro i
    by_cases hi : i < a.data.length
    · rw [h.slots i hi]; simp [hi]
    · rw [List.getElem?_eq_none (by omega), List.getElem?_eq_none (by simp; omega)]
  by_cases hn : a.data.length = 0
  · have h0 : a.data = [] := List.length_eq_zero_iff.mp hn
    have hx : xs = [] := List.length_eq_zero_iff.mp (by have := h.fits; omega)
    rw [h0, hx]; rfl
  · have hs := h.start_lt' (by omega)
    rw [hd, List.filterMap_map]
    have := (map_off_perm hs).filterMap (fun i => xs[i]?)
    rw [List.filterMap_map, filterMap_range_getElem? xs _ h.fits] at this
    exact this

end Ferlium.Arr
