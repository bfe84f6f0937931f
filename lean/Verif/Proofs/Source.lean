import Verif.Model.Source
import Mathlib.Tactic

/-! Lemmas about byte offsets, character boundaries and line starts. -/

namespace Ferlium.Source

@[simp] theorem bytes_nil : bytes [] = 0 := rfl
@[simp] theorem bytes_cons (c : Char) (t : List Char) : bytes (c :: t) = c.utf8Size + bytes t := by
  simp [bytes]
@[simp] theorem bytes_append (a b : List Char) : bytes (a ++ b) = bytes a + bytes b := by
  simp [bytes]

theorem size_pos (c : Char) : 0 < c.utf8Size := Char.utf8Size_pos c

theorem bytes_eq_zero {t : List Char} : bytes t = 0 ↔ t = [] := by
  cases t with
  | nil => simp
  | cons c t => have := size_pos c; simp; omega

/-- Two prefixes of a text with comparable sizes are comparable. -/
theorem prefix_of_bytes_le : ∀ {p q p' q' : List Char}, p ++ q = p' ++ q' → bytes p ≤ bytes p' →
    ∃ m, p' = p ++ m := by
  intro p
  induction p with
  | nil => intro q p' q' _ _; exact ⟨p', rfl⟩
  | cons c p ih =>
    intro q p' q' h hb
    cases p' with
    | nil => have := size_pos c; simp at hb; omega
    | cons d p' =>
      simp only [List.cons_append, List.cons.injEq] at h
      obtain ⟨rfl, h⟩ := h
      obtain ⟨m, rfl⟩ := ih h (by simpa using hb)
      exact ⟨m, rfl⟩

theorem isCharBoundary_iff : ∀ (t : List Char) (b : Nat),
    isCharBoundary t b = true ↔ ∃ p q, t = p ++ q ∧ bytes p = b := by
  intro t
  induction t with
  | nil =>
    intro b
    cases b with
    | zero => simp [isCharBoundary]
    | succ b =>
      simp only [isCharBoundary, Bool.false_eq_true, false_iff, not_exists, not_and]
      intro p q h
      have : p = [] := by
        cases p with
        | nil => rfl
        | cons _ _ => simp at h
      subst this; simp
  | cons c t ih =>
    intro b
    cases b with
    | zero => simp only [isCharBoundary, true_iff]; exact ⟨[], c :: t, rfl, rfl⟩
    | succ b =>
      have hc := size_pos c
      simp only [isCharBoundary]
      split_ifs with h
      · simp only [false_iff, not_exists, not_and, Bool.false_eq_true]
        intro p q hpq hb
        cases p with
        | nil => simp at hb
        | cons d p =>
          simp only [List.cons_append, List.cons.injEq] at hpq
          obtain ⟨rfl, _⟩ := hpq
          simp at hb; omega
      · rw [ih]
        constructor
        · rintro ⟨p, q, rfl, hb⟩
          exact ⟨c :: p, q, rfl, by simp; omega⟩
        · rintro ⟨p, q, hpq, hb⟩
          cases p with
          | nil => simp at hb
          | cons d p =>
            simp only [List.cons_append, List.cons.injEq] at hpq
            obtain ⟨rfl, rfl⟩ := hpq
            exact ⟨p, q, rfl, by simp at hb; omega⟩

theorem floorLoop_spec (t : List Char) : ∀ b : Nat,
    isCharBoundary t (floorLoop t b) = true ∧ floorLoop t b ≤ b ∧
    ∀ k, floorLoop t b < k → k ≤ b → isCharBoundary t k = false := by
  intro b
  induction b with
  | zero => refine ⟨by simp [floorLoop, isCharBoundary], by simp [floorLoop], ?_⟩; intro k h1 h2; omega
  | succ b ih =>
    simp only [floorLoop]
    split_ifs with h
    · exact ⟨h, le_rfl, fun k h1 h2 => by omega⟩
    · obtain ⟨h1, h2, h3⟩ := ih
      refine ⟨h1, by omega, fun k hk hk' => ?_⟩
      rcases Nat.lt_or_ge b k with hlt | hge
      · obtain rfl : k = b + 1 := by omega
        simpa using h
      · exact h3 k hk hge

/-- The floor is the size of the longest prefix that is not longer than the offset. -/
theorem floorCharBoundary_spec (t : List Char) (b : Nat) :
    ∃ p q, t = p ++ q ∧ bytes p = floorCharBoundary t b ∧ bytes p ≤ b ∧
      ∀ p' q', t = p' ++ q' → bytes p' ≤ b → bytes p' ≤ bytes p := by
  obtain ⟨h1, h2, h3⟩ := floorLoop_spec t (min b (bytes t))
  obtain ⟨p, q, ht, hp⟩ := (isCharBoundary_iff t _).mp h1
  refine ⟨p, q, ht, hp, by omega, ?_⟩
  intro p' q' ht' hb'
  by_contra hlt
  have hle : bytes p' ≤ bytes t := by rw [ht', bytes_append]; omega
  have := h3 (bytes p') (by omega) (by omega)
  rw [(isCharBoundary_iff t (bytes p')).mpr ⟨p', q', ht', rfl⟩] at this
  cases this

theorem ceilLoop_spec (t : List Char) : ∀ (n b : Nat), isCharBoundary t (b + n) = true →
    isCharBoundary t (ceilLoop t n b) = true ∧ b ≤ ceilLoop t n b ∧
    ∀ k, b ≤ k → k < ceilLoop t n b → isCharBoundary t k = false := by
  intro n
  induction n with
  | zero =>
    intro b h
    exact ⟨h, le_rfl, fun k h1 h2 => by simp only [ceilLoop] at h2; omega⟩
  | succ n ih =>
    intro b h
    simp only [ceilLoop]
    split_ifs with hb
    · exact ⟨hb, le_rfl, fun k h1 h2 => by omega⟩
    · obtain ⟨h1, h2, h3⟩ := ih (b + 1) (by rw [← h]; congr 1; omega)
      refine ⟨h1, by omega, fun k hk hk' => ?_⟩
      rcases Nat.lt_or_ge b k with hlt | hge
      · exact h3 k hlt hk'
      · obtain rfl : k = b := by omega
        simpa using hb

/-- The ceiling is the size of the shortest prefix that reaches the offset (the whole text if none
does). -/
theorem ceilCharBoundary_spec (t : List Char) (b : Nat) :
    ∃ p q, t = p ++ q ∧ bytes p = ceilCharBoundary t b ∧ min b (bytes t) ≤ bytes p ∧
      ∀ p' q', t = p' ++ q' → min b (bytes t) ≤ bytes p' → bytes p ≤ bytes p' := by
  have hend : isCharBoundary t (min b (bytes t) + (bytes t - min b (bytes t))) = true := by
    rw [isCharBoundary_iff]
    exact ⟨t, [], by simp, by omega⟩
  obtain ⟨h1, h2, h3⟩ := ceilLoop_spec t _ _ hend
  obtain ⟨p, q, ht, hp⟩ := (isCharBoundary_iff t _).mp h1
  refine ⟨p, q, ht, hp, by omega, ?_⟩
  intro p' q' ht' hb'
  by_contra hlt
  have := h3 (bytes p') (by omega) (by omega)
  rw [(isCharBoundary_iff t (bytes p')).mpr ⟨p', q', ht', rfl⟩] at this
  cases this

theorem dropBytes_append : ∀ (p q : List Char), dropBytes (p ++ q) (bytes p) = some q := by
  intro p
  induction p with
  | nil => intro q; cases q <;> simp [dropBytes]
  | cons c p ih =>
    intro q
    obtain ⟨k, hk⟩ : ∃ k, bytes (c :: p) = k + 1 := ⟨bytes (c :: p) - 1, by
      have := size_pos c; simp; omega⟩
    have : k + 1 - c.utf8Size = bytes p := by rw [← hk]; simp
    rw [hk]
    simp only [List.cons_append, dropBytes, this]
    rw [if_neg (by rw [← hk]; simp), ih q]

theorem takeBytes_append : ∀ (p q : List Char), takeBytes (p ++ q) (bytes p) = some p := by
  intro p
  induction p with
  | nil => intro q; cases q <;> simp [takeBytes]
  | cons c p ih =>
    intro q
    obtain ⟨k, hk⟩ : ∃ k, bytes (c :: p) = k + 1 := ⟨bytes (c :: p) - 1, by
      have := size_pos c; simp; omega⟩
    have : k + 1 - c.utf8Size = bytes p := by rw [← hk]; simp
    rw [hk]
    simp only [List.cons_append, takeBytes, this]
    rw [if_neg (by rw [← hk]; simp), ih q]
    rfl

theorem slice_append (p m q : List Char) : slice (p ++ m ++ q) (bytes p) (bytes (p ++ m)) = some m := by
  unfold slice
  rw [if_pos (by simp), List.append_assoc, dropBytes_append]
  simp [takeBytes_append]

/-! ### Line starts -/

theorem lineStartsFrom_append : ∀ (p q : List Char) (i : Nat),
    lineStartsFrom i (p ++ q) = lineStartsFrom i p ++ lineStartsFrom (i + bytes p) q := by
  intro p
  induction p with
  | nil => intro q i; simp [lineStartsFrom]
  | cons c p ih =>
    intro q i
    simp only [List.cons_append, lineStartsFrom, ih, bytes_cons]
    split_ifs <;> simp [Nat.add_assoc]

theorem lineStartsFrom_bounds : ∀ (p : List Char) (i x : Nat), x ∈ lineStartsFrom i p →
    i < x ∧ x ≤ i + bytes p := by
  intro p
  induction p with
  | nil => intro i x h; simp [lineStartsFrom] at h
  | cons c p ih =>
    intro i x h
    have hc := size_pos c
    simp only [lineStartsFrom] at h
    split_ifs at h with hn
    · rcases List.mem_cons.mp h with rfl | h
      · simp; omega
      · have := ih _ _ h; simp; omega
    · have := ih _ _ h; simp; omega

theorem lineStartsFrom_length : ∀ (p : List Char) (i : Nat),
    (lineStartsFrom i p).length = p.count '\n' := by
  intro p
  induction p with
  | nil => intro i; rfl
  | cons c p ih =>
    intro i
    simp only [lineStartsFrom]
    split_ifs with hn
    · subst hn; simp [ih]
    · rw [ih, List.count_cons_of_ne hn]

theorem lineStartsFrom_none {p : List Char} (h : '\n' ∉ p) (i : Nat) : lineStartsFrom i p = [] := by
  have := lineStartsFrom_length p i
  rw [List.count_eq_zero.mpr h] at this
  exact List.length_eq_zero_iff.mp this

/-- Split a prefix after its last newline. -/
theorem split_last_line (p : List Char) :
    ∃ q m, p = q ++ m ∧ '\n' ∉ m ∧ (q = [] ∨ ∃ q', q = q' ++ ['\n']) := by
  induction p using List.reverseRecOn with
  | nil => exact ⟨[], [], rfl, by simp, .inl rfl⟩
  | append_singleton p c ih =>
    by_cases hc : c = '\n'
    · subst hc
      exact ⟨p ++ ['\n'], [], by simp, by simp, .inr ⟨p, rfl⟩⟩
    · obtain ⟨q, m, rfl, hm, hq⟩ := ih
      refine ⟨q, m ++ [c], by simp, ?_, hq⟩
      simp only [List.mem_append, List.mem_singleton, not_or]
      exact ⟨hm, fun h => hc h.symm⟩

/-- The line starts up to the last one that is not after `q`. -/
theorem starts_of_line (q : List Char) (hq : q = [] ∨ ∃ q', q = q' ++ ['\n']) :
    ∃ A, 0 :: lineStartsFrom 0 q = A ++ [bytes q] ∧ (∀ x ∈ A, x < bytes q) ∧
      A.length = q.count '\n' := by
  rcases hq with rfl | ⟨q', rfl⟩
  · exact ⟨[], rfl, by simp, rfl⟩
  · refine ⟨0 :: lineStartsFrom 0 q', ?_, ?_, ?_⟩
    · rw [lineStartsFrom_append]
      simp [lineStartsFrom, show ('\n' : Char).utf8Size = 1 from rfl]
    · intro x hx
      simp only [bytes_append, bytes_cons, bytes_nil]
      have h1 : ('\n' : Char).utf8Size = 1 := rfl
      rcases List.mem_cons.mp hx with rfl | hx
      · omega
      · have := lineStartsFrom_bounds _ _ _ hx; omega
    · simp [lineStartsFrom_length]

theorem takeWhile_lt {A R : List Nat} {b : Nat} (hA : ∀ x ∈ A, x < b) (hR : ∀ x ∈ R, b ≤ x) :
    (A ++ R).takeWhile (· < b) = A := by
  induction A with
  | nil =>
    cases R with
    | nil => rfl
    | cons x R =>
      have := hR x (by simp)
      simp [this]
  | cons a A ih =>
    have := hA a (by simp)
    simp only [List.cons_append, List.takeWhile_cons, decide_eq_true_eq, this, if_true]
    rw [ih (fun x hx => hA x (by simp [hx]))]

/-- The main lemma: `get_line_column` on a character boundary. -/
theorem getLineColumn_boundary (q m r : List Char) (hm : '\n' ∉ m)
    (hq : q = [] ∨ ∃ q', q = q' ++ ['\n']) (b : Nat) (hb : b ≤ bytes (q ++ m ++ r))
    (hfl : floorCharBoundary (q ++ m ++ r) b = bytes (q ++ m)) :
    (Entry.new (q ++ m ++ r)).getLineColumn b = some (q.count '\n' + 1, m.length + 1) := by
  obtain ⟨A, hA, hlt, hlen⟩ := starts_of_line q hq
  have hls : (Entry.new (q ++ m ++ r)).lineStarts =
      A ++ bytes q :: lineStartsFrom (bytes (q ++ m)) r := by
    simp only [Entry.new, lineStartsFrom_append, lineStartsFrom_none hm, List.append_nil, Nat.zero_add]
    rw [← List.cons_append, hA]
    simp
  have hR : ∀ x ∈ lineStartsFrom (bytes (q ++ m)) r, bytes (q ++ m) < x :=
    fun x hx => (lineStartsFrom_bounds _ _ _ hx).1
  have hqm : bytes q ≤ bytes (q ++ m) := by simp
  -- the line found by the binary search
  have hline : lineOfSearch (binarySearch (Entry.new (q ++ m ++ r)).lineStarts (bytes (q ++ m))) =
      A.length + 1 := by
    rw [hls]
    by_cases he : bytes q = bytes (q ++ m)
    · have htw : (A ++ bytes q :: lineStartsFrom (bytes (q ++ m)) r).takeWhile
          (· < bytes (q ++ m)) = A := by
        refine takeWhile_lt (fun x hx => by have := hlt x hx; omega) ?_
        intro x hx
        rcases List.mem_cons.mp hx with rfl | hx
        · omega
        · exact (hR x hx).le
      simp only [binarySearch, htw]
      rw [if_pos (by simp [← he])]
      rfl
    · have htw : (A ++ bytes q :: lineStartsFrom (bytes (q ++ m)) r).takeWhile
          (· < bytes (q ++ m)) = A ++ [bytes q] := by
        rw [show A ++ bytes q :: lineStartsFrom (bytes (q ++ m)) r =
          (A ++ [bytes q]) ++ lineStartsFrom (bytes (q ++ m)) r by simp]
        refine takeWhile_lt ?_ (fun x hx => (hR x hx).le)
        intro x hx
        rcases List.mem_append.mp hx with hx | hx
        · have := hlt x hx; omega
        · simp only [List.mem_singleton] at hx; omega
      simp only [binarySearch, htw]
      rw [if_neg]
      · simp [lineOfSearch]
      · intro hx
        rw [show A ++ bytes q :: lineStartsFrom (bytes (q ++ m)) r =
          (A ++ [bytes q]) ++ lineStartsFrom (bytes (q ++ m)) r by simp] at hx
        rw [List.getElem?_append_right le_rfl] at hx
        have := hR _ (List.mem_of_getElem? hx)
        omega
  unfold Entry.getLineColumn
  have hsrc : (Entry.new (q ++ m ++ r)).source = q ++ m ++ r := rfl
  rw [hsrc, if_pos hb]
  simp only [hfl, hline]
  rw [if_neg (by omega), hls]
  have hget : (A ++ bytes q :: lineStartsFrom (bytes (q ++ m)) r)[A.length + 1 - 1]? =
      some (bytes q) := by simp
  rw [hget]
  simp only [slice_append]
  rw [hlen]

/-! ### Positions -/

theorem lookupLoop_spec (enc : Encoding) : ∀ (t : List Char) (i : Nat),
    (lookupLoop enc t i).1.length = bytes t ∧
    (lookupLoop enc t i).2 = i + (t.map enc.size).sum ∧
    ∀ (p : List Char) (c : Char) (q : List Char) (b : Nat), t = p ++ c :: q → bytes p ≤ b →
      b < bytes p + c.utf8Size → (lookupLoop enc t i).1[b]? = some (i + (p.map enc.size).sum) := by
  intro t
  induction t with
  | nil =>
    intro i
    refine ⟨rfl, rfl, ?_⟩
    intro p c q b h
    simp at h
  | cons d t ih =>
    intro i
    obtain ⟨h1, h2, h3⟩ := ih (i + enc.size d)
    refine ⟨?_, ?_, ?_⟩
    · simp [lookupLoop, h1]
    · simp [lookupLoop, h2, Nat.add_assoc]
    · intro p c q b h hb1 hb2
      simp only [lookupLoop]
      cases p with
      | nil =>
        simp only [List.nil_append, List.cons.injEq] at h
        obtain ⟨rfl, rfl⟩ := h
        simp only [bytes_nil, Nat.zero_add] at hb2
        rw [List.getElem?_append_left (by simpa using hb2)]
        simp [hb2]
      | cons e p =>
        simp only [List.cons_append, List.cons.injEq] at h
        obtain ⟨rfl, rfl⟩ := h
        simp only [bytes_cons] at hb1 hb2
        rw [List.getElem?_append_right (by simp; omega)]
        rw [h3 p c q _ rfl (by simp; omega) (by simp; omega)]
        simp [Nat.add_assoc]

end Ferlium.Source
