import Verif.Proofs.LinkedList
import Verif.Proofs.Iter

/-!
C41: the doubly linked list with stable addresses refines an ideal sequence of (address, element) pairs.

Specification: an ideal state is the sequence of (address, element) pairs, the stack of addresses given back, and
the number of addresses ever used (`Ideal`); `ideal` below says what each operation does to it.
-/
namespace Ferlium.LinkedList

variable {T : Type}

/-- Specification of one operation on the ideal state; `none`: the operation is rejected. -/
def ideal (m : Ideal T) : Op T → Option (Out T × Ideal T)
  | .append x => (fresh m).map fun (n, m') => (.address n, { m' with live := m.live ++ [(n, x)] })
  | .prepend x => (fresh m).map fun (n, m') => (.address n, { m' with live := (n, x) :: m.live })
  | .insertBefore b x =>
    if b ∈ m.live.map Prod.fst then
      (fresh m).map fun (n, m') =>
        (.address n, { m' with live := m.live.flatMap fun e => if e.1 = b then [(n, x), e] else [e] })
    else none
  | .insertAfter b x =>
    if b ∈ m.live.map Prod.fst then
      (fresh m).map fun (n, m') =>
        (.address n, { m' with live := m.live.flatMap fun e => if e.1 = b then [e, (n, x)] else [e] })
    else none
  | .remove b =>
    match m.live.find? (fun e => e.1 = b) with
    | some e => some (.element e.2, { m with live := m.live.filter (fun e => e.1 ≠ b), free := b :: m.free })
    | none => none
  | .assign b x =>
    if b ∈ m.live.map Prod.fst then
      some (.unit, { m with live := m.live.map fun e => if e.1 = b then (b, x) else e })
    else none

/-- Specification of a sequence of operations. -/
def idealRun (m : Ideal T) : List (Op T) → Option (List (Out T) × Ideal T)
  | [] => some ([], m)
  | op :: ops =>
    match ideal m op with
    | none => none
    | some (o, m) => (idealRun m ops).map (fun r => (o :: r.1, r.2))

/-- Everything a user can observe of a list agrees with the ideal state. -/
structure Observes (l : L T) (m : Ideal T) : Prop where
  len : l.size = m.live.length
  first : l.head = m.live.head?.map Prod.fst
  last : l.tail = m.live.getLast?.map Prod.fst
  addresses : Iter.Behaves (addressNext l) l.head (m.live.map Prod.fst)
  elements : Iter.Behaves (elementNext l) l.head (m.live.map Prod.snd)
  index : ∀ a, index l a = (m.live.find? (fun e => e.1 = a)).map Prod.snd
  after : ∀ k e, m.live[k]? = some e → addressAfter l e.1 = some ((m.live[k + 1]?).map Prod.fst)
  before : ∀ k e, m.live[k]? = some e →
    addressBefore l e.1 = some (if k = 0 then none else (m.live[k - 1]?).map Prod.fst)
  dead : ∀ a, a ∉ m.live.map Prod.fst → addressAfter l a = none ∧ addressBefore l a = none
  storage : l.storage.length = m.bound

theorem hd_eq (s : List (Nat × T)) (n : Option Nat) : hd s n = (s.head?.map Prod.fst).or n := by
  cases s with
  | nil => simp
  | cons x s => simp [hd]

theorem lst_eq (s : List (Nat × T)) (p : Option Nat) : lst p s = (s.getLast?.map Prod.fst).or p := by
  induction s generalizing p with
  | nil => simp
  | cons x s ih =>
    obtain ⟨a, x⟩ := x
    rw [lst_cons, ih]
    cases h : s.getLast? with
    | none => rw [List.getLast?_eq_none_iff] at h; subst h; simp
    | some y => simp [List.getLast?_cons, h]

theorem split_at {s : List (Nat × T)} {k : Nat} {e : Nat × T} (h : s[k]? = some e) :
    s = s.take k ++ e :: s.drop (k + 1) := by
  obtain ⟨hk, rfl⟩ := List.getElem?_eq_some_iff.1 h
  rw [← List.drop_eq_getElem_cons hk, List.take_append_drop]

theorem find_split {A B : List (Nat × T)} {a : Nat} {v : T} (h : a ∉ addrs A) :
    (A ++ (a, v) :: B).find? (fun e => e.1 = a) = some (a, v) := by
  rw [List.find?_append]
  have : A.find? (fun e => e.1 = a) = none := by
    rw [List.find?_eq_none]
    intro e he
    simp
    intro hc
    exact h (mem_addrs.2 ⟨e.2, by rw [← hc]; exact he⟩)
  simp [this]

theorem observes {l : L T} {m : Ideal T} (h : Inv l m) : Observes l m := by
  have hsplit : ∀ {A B : List (Nat × T)} {a : Nat} {v : T}, m.live = A ++ (a, v) :: B →
      addressAfter l a = some (hd B none) ∧ addressBefore l a = some (lst none A) ∧ index l a = some v := by
    intro A B a v hl
    obtain ⟨h1, h2⟩ := bucket_of_split h hl
    simp [addressAfter, addressBefore, index, h1, h2]
  have hnd := (List.nodup_append.1 h.nodup).1
  refine ⟨h.size, ?_, ?_, ?_, ?_, ?_, ?_, ?_, ?_, h.bound⟩
  · rw [h.head, hd_eq]; simp
  · rw [h.tail, lst_eq]; simp
  · rw [h.head]
    refine Iter.behaves_of_rel (fun p xs => ∃ A B, m.live = A ++ B ∧ p = hd B none ∧ xs = B.map Prod.fst)
      ?_ ?_ _ _ ⟨[], m.live, rfl, rfl, rfl⟩
    · rintro s ⟨A, B, hl, rfl, hx⟩
      have : B = [] := by simpa using hx.symm
      subst this
      exact ⟨none, rfl, A, [], hl, rfl, rfl⟩
    · rintro s x xs ⟨A, B, hl, rfl, hx⟩
      cases B with
      | nil => simp at hx
      | cons e B =>
        obtain ⟨a, v⟩ := e
        simp at hx
        obtain ⟨rfl, rfl⟩ := hx
        refine ⟨hd B none, ?_, A ++ [(x, v)], B, by simp [hl], rfl, rfl⟩
        simp [addressNext, (hsplit hl).1]
  · rw [h.head]
    refine Iter.behaves_of_rel (fun p xs => ∃ A B, m.live = A ++ B ∧ p = hd B none ∧ xs = B.map Prod.snd)
      ?_ ?_ _ _ ⟨[], m.live, rfl, rfl, rfl⟩
    · rintro s ⟨A, B, hl, rfl, hx⟩
      have : B = [] := by simpa using hx.symm
      subst this
      exact ⟨none, rfl, A, [], hl, rfl, rfl⟩
    · rintro s x xs ⟨A, B, hl, rfl, hx⟩
      cases B with
      | nil => simp at hx
      | cons e B =>
        obtain ⟨a, v⟩ := e
        simp at hx
        obtain ⟨rfl, rfl⟩ := hx
        refine ⟨hd B none, ?_, A ++ [(a, x)], B, by simp [hl], rfl, rfl⟩
        simp [elementNext, addressNext, (hsplit hl).1, (hsplit hl).2.2]
  · intro a
    by_cases ha : a ∈ addrs m.live
    · obtain ⟨A, v, B, hl⟩ := split_of_mem ha
      rw [(hsplit hl).2.2, hl, find_split]
      · rfl
      · rw [hl, addrs_append, addrs_cons, List.nodup_append] at hnd
        exact fun hc => hnd.2.2 a hc a (by simp) rfl
    · have : m.live.find? (fun e => e.1 = a) = none := by
        rw [List.find?_eq_none]
        intro e he
        simp
        intro hc
        exact ha (mem_addrs.2 ⟨e.2, by rw [← hc]; exact he⟩)
      simp [this, index, inBounds_none h ha]
  · rintro k ⟨a, v⟩ hk
    rw [(hsplit (split_at hk)).1, hd_eq]; simp
  · rintro k ⟨a, v⟩ hk
    rw [(hsplit (split_at hk)).2.1, lst_eq]
    have hlt := (List.getElem?_eq_some_iff.1 hk).1
    simp only [Option.or_none]
    congr 1
    by_cases h0 : k = 0
    · simp [h0]
    · rw [if_neg h0, List.getLast?_eq_getElem?, List.length_take, Nat.min_eq_left (by omega),
        List.getElem?_take, if_pos (by omega)]
  · intro a ha
    simp [addressAfter, addressBefore, inBounds_none h ha]

theorem flatMap_id {s : List (Nat × T)} {b : Nat} {f : Nat × T → List (Nat × T)} (h : b ∉ addrs s) :
    (s.flatMap fun e => if e.1 = b then f e else [e]) = s := by
  induction s with
  | nil => rfl
  | cons e s ih =>
    obtain ⟨a, x⟩ := e
    rw [addrs_cons, List.mem_cons] at h
    push Not at h
    simp only [List.flatMap_cons, ih h.2, if_neg (Ne.symm h.1), List.singleton_append]

theorem flatMap_split {A B : List (Nat × T)} {a : Nat} {v : T} {f : Nat × T → List (Nat × T)}
    (h : (addrs (A ++ (a, v) :: B)).Nodup) :
    ((A ++ (a, v) :: B).flatMap fun e => if e.1 = a then f e else [e]) = A ++ f (a, v) ++ B := by
  rw [addrs_append, addrs_cons, List.nodup_append, List.nodup_cons] at h
  rw [List.flatMap_append, List.flatMap_cons, flatMap_id (fun hc => h.2.2 a hc a (by simp) rfl), flatMap_id h.2.1.1]
  simp

theorem filter_split {A B : List (Nat × T)} {a : Nat} {v : T} (h : (addrs (A ++ (a, v) :: B)).Nodup) :
    (A ++ (a, v) :: B).filter (fun e => e.1 ≠ a) = A ++ B := by
  rw [addrs_append, addrs_cons, List.nodup_append, List.nodup_cons] at h
  rw [List.filter_append, List.filter_cons_of_neg (by simp)]
  congr 1
  · rw [List.filter_eq_self]
    intro e he
    simp
    intro hc
    exact h.2.2 a (mem_addrs.2 ⟨e.2, by rw [← hc]; exact he⟩) a (by simp) rfl
  · rw [List.filter_eq_self]
    intro e he
    simp
    intro hc
    exact h.2.1.1 (mem_addrs.2 ⟨e.2, by rw [← hc]; exact he⟩)

theorem map_split {A B : List (Nat × T)} {a : Nat} {v x : T} (h : (addrs (A ++ (a, v) :: B)).Nodup) :
    ((A ++ (a, v) :: B).map fun e => if e.1 = a then (a, x) else e) = A ++ (a, x) :: B := by
  have := flatMap_split (f := fun _ => [(a, x)]) h
  rw [List.append_assoc] at this
  simp only [List.singleton_append] at this
  rw [← this, ← List.flatMap_pure_eq_map]
  congr 1
  funext e
  simp only [Function.comp]
  split <;> rfl

theorem step_spec {l : L T} {m : Ideal T} (h : Inv l m) (op : Op T) :
    match ideal m op with
    | none => step l op = none
    | some (o, m') => ∃ l', step l op = some (o, l') ∧ Inv l' m' := by
  have hnd := (List.nodup_append.1 h.nodup).1
  cases op with
  | append x =>
    have := append_spec h x
    simp only [ideal, step]
    rcases hf : fresh m with _ | ⟨n, m'⟩
    · rw [hf] at this; simp only at this; simp [this]
    · rw [hf] at this; simp only at this
      obtain ⟨l', h1, h2⟩ := this
      exact ⟨l', by simp [h1], h2⟩
  | prepend x =>
    have := prepend_spec h x
    simp only [ideal, step]
    rcases hf : fresh m with _ | ⟨n, m'⟩
    · rw [hf] at this; simp only at this; simp [this]
    · rw [hf] at this; simp only at this
      obtain ⟨l', h1, h2⟩ := this
      exact ⟨l', by simp [h1], h2⟩
  | insertBefore b x =>
    simp only [ideal, step]
    by_cases hb : b ∈ addrs m.live
    · rw [if_pos (show b ∈ m.live.map Prod.fst from hb)]
      obtain ⟨A, v, B, hl⟩ := split_of_mem hb
      have := insertBefore_spec h hl x
      rcases hf : fresh m with _ | ⟨n, m'⟩
      · rw [hf] at this; simp only at this; simp [this]
      · rw [hf] at this; simp only at this
        obtain ⟨l', h1, h2⟩ := this
        refine ⟨l', by simp [h1], ?_⟩
        rw [hl] at hnd
        simp only [hl, flatMap_split (f := fun e => [(n, x), e]) hnd]
        simpa using h2
    · rw [if_neg (show b ∉ m.live.map Prod.fst from hb)]
      simp [insertBefore, inBounds_none h hb]
  | insertAfter b x =>
    simp only [ideal, step]
    by_cases hb : b ∈ addrs m.live
    · rw [if_pos (show b ∈ m.live.map Prod.fst from hb)]
      obtain ⟨A, v, B, hl⟩ := split_of_mem hb
      have := insertAfter_spec h hl x
      rcases hf : fresh m with _ | ⟨n, m'⟩
      · rw [hf] at this; simp only at this; simp [this]
      · rw [hf] at this; simp only at this
        obtain ⟨l', h1, h2⟩ := this
        refine ⟨l', by simp [h1], ?_⟩
        rw [hl] at hnd
        simp only [hl, flatMap_split (f := fun e => [e, (n, x)]) hnd]
        simpa using h2
    · rw [if_neg (show b ∉ m.live.map Prod.fst from hb)]
      simp [insertAfter, inBounds_none h hb]
  | remove b =>
    simp only [ideal, step]
    by_cases hb : b ∈ addrs m.live
    · obtain ⟨A, v, B, hl⟩ := split_of_mem hb
      obtain ⟨l', h1, h2⟩ := remove_spec h hl
      rw [hl] at hnd
      have hA : b ∉ addrs A := by
        rw [addrs_append, addrs_cons, List.nodup_append] at hnd
        exact fun hc => hnd.2.2 b hc b (by simp) rfl
      rw [hl, find_split hA]
      refine ⟨l', by simp [h1], ?_⟩
      rw [filter_split hnd]
      exact h2
    · have : m.live.find? (fun e => e.1 = b) = none := by
        rw [List.find?_eq_none]
        intro e he
        simp
        intro hc
        exact hb (mem_addrs.2 ⟨e.2, by rw [← hc]; exact he⟩)
      rw [this]
      simp [remove, inBounds_none h hb]
  | assign b x =>
    simp only [ideal, step]
    by_cases hb : b ∈ addrs m.live
    · rw [if_pos (show b ∈ m.live.map Prod.fst from hb)]
      obtain ⟨A, v, B, hl⟩ := split_of_mem hb
      obtain ⟨l', h1, h2⟩ := assign_spec h hl x
      refine ⟨l', by simp [h1], ?_⟩
      rw [hl] at hnd
      simp only [hl, map_split hnd]
      exact h2
    · rw [if_neg (show b ∉ m.live.map Prod.fst from hb)]
      simp [assign, inBounds_none h hb]

theorem run_spec {l : L T} {m : Ideal T} (h : Inv l m) (ops : List (Op T)) :
    match idealRun m ops with
    | none => run l ops = none
    | some (os, m') => ∃ l', run l ops = some (os, l') ∧ Inv l' m' := by
  induction ops generalizing l m with
  | nil => exact ⟨l, rfl, h⟩
  | cons op ops ih =>
    have hs := step_spec h op
    rw [idealRun]
    rcases hi : ideal m op with _ | ⟨o, m'⟩
    · rw [hi] at hs; simp only at hs; simp [run, hs]
    · rw [hi] at hs
      simp only at hs
      obtain ⟨l', h1, h2⟩ := hs
      have := ih h2
      rcases hr : idealRun m' ops with _ | ⟨os, m''⟩
      · rw [hr] at this; simp only at this; simp [run, h1, this, hr]
      · rw [hr] at this
        simp only at this
        obtain ⟨l'', g1, g2⟩ := this
        simp only [hr, Option.map_some]
        exact ⟨l'', by simp [run, h1, g1], g2⟩

/-- **C41** every operation sequence gives the results, the rejections and the observable state of the ideal
sequence: iteration order, addresses, neighbours, lookups, length. -/
theorem C41_refines_sequence (ops : List (Op T)) :
    match idealRun ⟨[], [], 0⟩ ops with
    | none => run new ops = none
    | some (os, m) => ∃ l, run new ops = some (os, l) ∧ Observes l m := by
  have := run_spec (new_inv (T := T)) ops
  rcases h : idealRun ⟨[], [], 0⟩ ops with _ | ⟨os, m⟩
  · rw [h] at this; exact this
  · rw [h] at this
    obtain ⟨l, h1, h2⟩ := this
    exact ⟨l, h1, observes h2⟩

theorem reach {ops : List (Op T)} {os : List (Out T)} {l : L T} (hr : run new ops = some (os, l)) :
    ∃ m, idealRun ⟨[], [], 0⟩ ops = some (os, m) ∧ Inv l m := by
  have := run_spec (new_inv (T := T)) ops
  rcases h : idealRun ⟨[], [], 0⟩ ops with _ | ⟨os', m⟩
  · rw [h] at this; simp only at this; rw [hr] at this; simp at this
  · rw [h] at this
    obtain ⟨l', h1, h2⟩ := this
    rw [hr] at h1
    simp only [Option.some.injEq, Prod.mk.injEq] at h1
    obtain ⟨rfl, rfl⟩ := h1
    exact ⟨m, rfl, h2⟩

theorem mem_find {s : List (Nat × T)} (hnd : (addrs s).Nodup) {a : Nat} {x : T} :
    (s.find? (fun e => e.1 = a)).map Prod.snd = some x ↔ (a, x) ∈ s := by
  constructor
  · intro h
    rw [Option.map_eq_some_iff] at h
    obtain ⟨⟨b, y⟩, h1, rfl⟩ := h
    have := List.find?_some h1
    simp at this
    subst this
    exact List.mem_of_find?_eq_some h1
  · intro h
    obtain ⟨A, B, rfl⟩ := List.append_of_mem h
    rw [find_split]
    · rfl
    · rw [addrs_append, addrs_cons, List.nodup_append] at hnd
      exact fun hc => hnd.2.2 a hc a (by simp) rfl

theorem fresh_live {m m' : Ideal T} {n : Nat} (h : fresh m = some (n, m')) : m'.live = m.live := by
  rw [fresh] at h
  split at h
  · simp at h; rw [← h.2]
  · split at h
    · simp at h; rw [← h.2]
    · simp at h

/-- **C41** an address keeps denoting its element, whatever is done to other elements: only removing that element
or assigning through that address changes what it denotes. -/
theorem C41_addresses_stable (ops : List (Op T)) (os : List (Out T)) (l l' : L T) (op : Op T) (o : Out T)
    (a : Nat) (x : T) (hr : run new ops = some (os, l)) (hx : index l a = some x) (hs : step l op = some (o, l'))
    (hne : op ≠ .remove a) (hna : ∀ y, op ≠ .assign a y) : index l' a = some x := by
  obtain ⟨m, -, hi⟩ := reach hr
  have hst := step_spec hi op
  rcases hid : ideal m op with _ | ⟨o', m'⟩
  · rw [hid] at hst; simp only at hst; rw [hs] at hst; simp at hst
  rw [hid] at hst
  obtain ⟨l'', h1, hi'⟩ := hst
  rw [hs] at h1
  simp only [Option.some.injEq, Prod.mk.injEq] at h1
  obtain ⟨rfl, rfl⟩ := h1
  rw [(observes hi).index, mem_find (List.nodup_append.1 hi.nodup).1] at hx
  rw [(observes hi').index, mem_find (List.nodup_append.1 hi'.nodup).1]
  cases op with
  | append y =>
    simp only [ideal, Option.map_eq_some_iff, Prod.exists, Prod.mk.injEq] at hid
    obtain ⟨n, m1, hf, rfl, rfl⟩ := hid
    simp [hx]
  | prepend y =>
    simp only [ideal, Option.map_eq_some_iff, Prod.exists, Prod.mk.injEq] at hid
    obtain ⟨n, m1, hf, rfl, rfl⟩ := hid
    simp [hx]
  | insertBefore b y =>
    simp only [ideal] at hid
    split at hid
    · simp only [Option.map_eq_some_iff, Prod.exists, Prod.mk.injEq] at hid
      obtain ⟨n, m1, hf, rfl, rfl⟩ := hid
      exact List.mem_flatMap.2 ⟨(a, x), hx, by split <;> simp⟩
    · simp at hid
  | insertAfter b y =>
    simp only [ideal] at hid
    split at hid
    · simp only [Option.map_eq_some_iff, Prod.exists, Prod.mk.injEq] at hid
      obtain ⟨n, m1, hf, rfl, rfl⟩ := hid
      exact List.mem_flatMap.2 ⟨(a, x), hx, by split <;> simp⟩
    · simp at hid
  | remove b =>
    have hab : a ≠ b := fun hc => hne (by rw [hc])
    simp only [ideal] at hid
    split at hid
    · simp only [Option.some.injEq, Prod.mk.injEq] at hid
      obtain ⟨rfl, rfl⟩ := hid
      exact List.mem_filter.2 ⟨hx, by simpa using hab⟩
    · simp at hid
  | assign b y =>
    have hab : a ≠ b := fun hc => hna y (by rw [hc])
    simp only [ideal] at hid
    split at hid
    · simp only [Option.some.injEq, Prod.mk.injEq] at hid
      obtain ⟨rfl, rfl⟩ := hid
      exact List.mem_map.2 ⟨(a, x), hx, by simp [hab]⟩
    · simp at hid

/-- **C41** an address that denotes nothing is rejected by every operation that takes an address, and stays
rejected until an insertion hands it out; an insertion only ever hands out such an address. -/
theorem C41_dead_addresses (ops : List (Op T)) (os : List (Out T)) (l : L T) (a : Nat)
    (hr : run new ops = some (os, l)) (hx : index l a = none) :
    (∀ x, step l (.insertBefore a x) = none ∧ step l (.insertAfter a x) = none ∧ step l (.assign a x) = none) ∧
    step l (.remove a) = none ∧ addressAfter l a = none ∧ addressBefore l a = none ∧
    (∀ op o l', step l op = some (o, l') → (index l' a = none ↔ o ≠ .address a)) := by
  obtain ⟨m, -, hi⟩ := reach hr
  have hdead : a ∉ addrs m.live := by
    intro hc
    obtain ⟨x, hm⟩ := mem_addrs.1 hc
    rw [(observes hi).index, (mem_find (List.nodup_append.1 hi.nodup).1).2 hm] at hx
    simp at hx
  have hb := inBounds_none hi hdead
  refine ⟨fun x => by simp [step, insertBefore, insertAfter, assign, hb], by simp [step, remove, hb],
    by simp [addressAfter, hb], by simp [addressBefore, hb], ?_⟩
  intro op o l' hs
  have hst := step_spec hi op
  rcases hid : ideal m op with _ | ⟨o', m'⟩
  · rw [hid] at hst; simp only at hst; rw [hs] at hst; simp at hst
  rw [hid] at hst
  obtain ⟨l'', h1, hi'⟩ := hst
  rw [hs] at h1
  simp only [Option.some.injEq, Prod.mk.injEq] at h1
  obtain ⟨rfl, rfl⟩ := h1
  have hiff : index l' a = none ↔ a ∉ addrs m'.live := by
    constructor
    · intro hn hc
      obtain ⟨x, hm⟩ := mem_addrs.1 hc
      rw [(observes hi').index, (mem_find (List.nodup_append.1 hi'.nodup).1).2 hm] at hn
      simp at hn
    · intro hn
      simp [index, inBounds_none hi' hn]
  rw [hiff]
  cases op with
  | append y =>
    simp only [ideal, Option.map_eq_some_iff, Prod.exists, Prod.mk.injEq] at hid
    obtain ⟨n, m1, hf, rfl, rfl⟩ := hid
    simp only [addrs_append, List.mem_append, hdead, addrs_cons, List.mem_cons, ne_eq, Out.address.injEq]
    simp [addrs]
    tauto
  | prepend y =>
    simp only [ideal, Option.map_eq_some_iff, Prod.exists, Prod.mk.injEq] at hid
    obtain ⟨n, m1, hf, rfl, rfl⟩ := hid
    simp only [addrs_cons, List.mem_cons, hdead, ne_eq, Out.address.injEq]
    tauto
  | insertBefore b y =>
    simp only [ideal] at hid
    split at hid
    · rename_i hbm
      simp only [Option.map_eq_some_iff, Prod.exists, Prod.mk.injEq] at hid
      obtain ⟨n, m1, hf, rfl, rfl⟩ := hid
      obtain ⟨A, v, B, hl⟩ := split_of_mem hbm
      have hnd := (List.nodup_append.1 hi.nodup).1
      rw [hl] at hnd hdead
      simp only [hl, flatMap_split (f := fun e => [(n, y), e]) hnd]
      simp [addrs] at hdead ⊢
      tauto
    · simp at hid
  | insertAfter b y =>
    simp only [ideal] at hid
    split at hid
    · rename_i hbm
      simp only [Option.map_eq_some_iff, Prod.exists, Prod.mk.injEq] at hid
      obtain ⟨n, m1, hf, rfl, rfl⟩ := hid
      obtain ⟨A, v, B, hl⟩ := split_of_mem hbm
      have hnd := (List.nodup_append.1 hi.nodup).1
      rw [hl] at hnd hdead
      simp only [hl, flatMap_split (f := fun e => [e, (n, y)]) hnd]
      simp [addrs] at hdead ⊢
      tauto
    · simp at hid
  | remove b =>
    simp only [ideal] at hid
    split at hid
    · simp only [Option.some.injEq, Prod.mk.injEq] at hid
      obtain ⟨rfl, rfl⟩ := hid
      simp only [ne_eq, reduceCtorEq, not_false_eq_true, iff_true]
      intro hc
      obtain ⟨x, hm⟩ := mem_addrs.1 hc
      exact hdead (mem_addrs.2 ⟨x, List.mem_of_mem_filter hm⟩)
    · simp at hid
  | assign b y =>
    simp only [ideal] at hid
    split at hid
    · rename_i hbm
      simp only [Option.some.injEq, Prod.mk.injEq] at hid
      obtain ⟨rfl, rfl⟩ := hid
      simp only [ne_eq, reduceCtorEq, not_false_eq_true, iff_true]
      intro hc
      obtain ⟨x, hm⟩ := mem_addrs.1 hc
      obtain ⟨e, he, heq⟩ := List.mem_map.1 hm
      split at heq
      · cases heq; exact hdead hbm
      · exact hdead (mem_addrs.2 ⟨x, by rw [← heq]; exact he⟩)
    · simp at hid

/-- **C41** removing an element returns it and makes its address dead. -/
theorem C41_remove (ops : List (Op T)) (os : List (Out T)) (l : L T) (a : Nat) (x : T)
    (hr : run new ops = some (os, l)) (hx : index l a = some x) :
    ∃ l', step l (.remove a) = some (.element x, l') ∧ index l' a = none := by
  obtain ⟨m, -, hi⟩ := reach hr
  rw [(observes hi).index, mem_find (List.nodup_append.1 hi.nodup).1] at hx
  have hnd := (List.nodup_append.1 hi.nodup).1
  obtain ⟨A, B, hl⟩ := List.append_of_mem hx
  obtain ⟨l', h1, h2⟩ := remove_spec hi hl
  refine ⟨l', by simp [step, h1], ?_⟩
  have : a ∉ addrs (A ++ B) := by
    rw [hl, addrs_append, addrs_cons, List.nodup_append, List.nodup_cons] at hnd
    rw [addrs_append, List.mem_append]
    rintro (hc | hc)
    · exact hnd.2.2 a hc a (by simp) rfl
    · exact hnd.2.1.1 hc
  simp [index, inBounds_none h2 this]

theorem ideal_counts {m m' : Ideal T} {op : Op T} {o : Out T} {l : L T} (hi : Inv l m)
    (hb : m.live.length + m.free.length = m.bound) (h : ideal m op = some (o, m')) :
    m'.live.length + m'.free.length = m'.bound ∧ m.bound ≤ m'.bound ∧
      (m'.bound = m.bound ∨ m'.bound = m'.live.length) := by
  have hnd := (List.nodup_append.1 hi.nodup).1
  have hfresh : ∀ n m1, fresh m = some (n, m1) → m.bound ≤ m1.bound ∧
      m.live.length + 1 + m1.free.length = m1.bound ∧ (m1.bound = m.bound ∨ m1.bound = m.live.length + 1) := by
    intro n m1 hf
    rw [fresh] at hf
    cases hfr : m.free with
    | cons a r =>
      rw [hfr] at hf hb; simp at hf; obtain ⟨rfl, rfl⟩ := hf; simp at hb ⊢; omega
    | nil =>
      rw [hfr] at hf hb; simp only at hf
      split at hf
      · simp at hf; obtain ⟨rfl, rfl⟩ := hf; simp [hfr] at hb ⊢; omega
      · simp at hf
  cases op with
  | append y =>
    simp only [ideal, Option.map_eq_some_iff, Prod.exists, Prod.mk.injEq] at h
    obtain ⟨n, m1, hf, rfl, rfl⟩ := h
    have := hfresh n m1 hf
    simp; omega
  | prepend y =>
    simp only [ideal, Option.map_eq_some_iff, Prod.exists, Prod.mk.injEq] at h
    obtain ⟨n, m1, hf, rfl, rfl⟩ := h
    have := hfresh n m1 hf
    simp; omega
  | insertBefore b y =>
    simp only [ideal] at h
    split at h
    · rename_i hbm
      simp only [Option.map_eq_some_iff, Prod.exists, Prod.mk.injEq] at h
      obtain ⟨n, m1, hf, rfl, rfl⟩ := h
      have := hfresh n m1 hf
      obtain ⟨A, v, B, hl⟩ := split_of_mem hbm
      rw [hl] at hnd
      have hlen : m.live.length = A.length + (B.length + 1) := by rw [hl]; simp
      simp only [hl, flatMap_split (f := fun e => [(n, y), e]) hnd]
      simp; omega
    · simp at h
  | insertAfter b y =>
    simp only [ideal] at h
    split at h
    · rename_i hbm
      simp only [Option.map_eq_some_iff, Prod.exists, Prod.mk.injEq] at h
      obtain ⟨n, m1, hf, rfl, rfl⟩ := h
      have := hfresh n m1 hf
      obtain ⟨A, v, B, hl⟩ := split_of_mem hbm
      rw [hl] at hnd
      have hlen : m.live.length = A.length + (B.length + 1) := by rw [hl]; simp
      simp only [hl, flatMap_split (f := fun e => [e, (n, y)]) hnd]
      simp; omega
    · simp at h
  | remove b =>
    simp only [ideal] at h
    split at h
    · rename_i e he
      simp only [Option.some.injEq, Prod.mk.injEq] at h
      obtain ⟨rfl, rfl⟩ := h
      have hbe := List.find?_some he
      simp at hbe
      obtain ⟨A, B, hl⟩ := List.append_of_mem (List.mem_of_find?_eq_some he)
      obtain ⟨a, v⟩ := e
      simp only at hbe
      subst hbe
      rw [hl] at hnd
      have hlen : m.live.length = A.length + (B.length + 1) := by rw [hl]; simp
      simp only [hl, filter_split hnd]
      simp; omega
    · simp at h
  | assign b y =>
    simp only [ideal] at h
    split at h
    · simp only [Option.some.injEq, Prod.mk.injEq] at h
      obtain ⟨rfl, rfl⟩ := h
      simp; omega
    · simp at h

theorem run_append (l : L T) (xs ys : List (Op T)) :
    run l (xs ++ ys) = match run l xs with
      | none => none
      | some (os, l) => (run l ys).map (fun r => (os ++ r.1, r.2)) := by
  induction xs generalizing l with
  | nil => simp [run]
  | cons op xs ih =>
    simp only [List.cons_append, run]
    cases step l op with
    | none => rfl
    | some r =>
      obtain ⟨o, l'⟩ := r
      simp only [ih]
      cases run l' xs with
      | none => rfl
      | some r => obtain ⟨os, l''⟩ := r; simp; cases run l'' ys <;> simp

/-- **C41** removed buckets are reused: the storage never holds more buckets than the largest number of elements
the list ever had. -/
theorem C41_storage_is_peak (ops : List (Op T)) (os : List (Out T)) (l : L T) (hr : run new ops = some (os, l)) :
    (∃ k os' l', run new (ops.take k) = some (os', l') ∧ l'.size = l.storage.length) ∧
    ∀ k os' l', run new (ops.take k) = some (os', l') → l'.size ≤ l.storage.length := by
  suffices hs : ∃ m, Inv l m ∧ m.live.length + m.free.length = m.bound ∧
      (∃ k os' l', run new (ops.take k) = some (os', l') ∧ l'.size = m.bound) ∧
      ∀ k os' l', run new (ops.take k) = some (os', l') → l'.size ≤ m.bound by
    obtain ⟨m, hi, -, h1, h2⟩ := hs
    rw [hi.bound]; exact ⟨h1, h2⟩
  induction ops using List.reverseRecOn generalizing os l with
  | nil =>
    simp only [run, Option.some.injEq, Prod.mk.injEq] at hr
    obtain ⟨rfl, rfl⟩ := hr
    refine ⟨⟨[], [], 0⟩, new_inv, rfl, ⟨0, [], new, rfl, rfl⟩, ?_⟩
    intro k os' l' h
    simp only [List.take_nil, run, Option.some.injEq, Prod.mk.injEq] at h
    obtain ⟨rfl, rfl⟩ := h
    simp [new]
  | append_singleton ops op ih =>
    have hrr := hr
    rw [run_append] at hr
    rcases hp : run new ops with _ | ⟨os1, l1⟩
    · rw [hp] at hr; simp at hr
    rw [hp] at hr
    simp only [run] at hr
    rcases hst : step l1 op with _ | ⟨o, l2⟩
    · rw [hst] at hr; simp at hr
    rw [hst] at hr
    simp only [Option.map_some, Option.some.injEq, Prod.mk.injEq] at hr
    obtain ⟨rfl, rfl⟩ := hr
    obtain ⟨m, hi, hc, ⟨k, os', l', hk, hsz⟩, hmax⟩ := ih os1 l1 hp
    have hss := step_spec hi op
    rcases hid : ideal m op with _ | ⟨o', m'⟩
    · rw [hid] at hss; simp only at hss; rw [hst] at hss; simp at hss
    rw [hid] at hss
    obtain ⟨l3, h1, hi'⟩ := hss
    rw [hst] at h1
    simp only [Option.some.injEq, Prod.mk.injEq] at h1
    obtain ⟨rfl, rfl⟩ := h1
    obtain ⟨c1, c2, c3⟩ := ideal_counts hi hc hid
    refine ⟨m', hi', c1, ?_, ?_⟩
    · rcases c3 with c3 | c3
      · by_cases hkl : k ≤ ops.length
        · exact ⟨k, os', l', by rw [List.take_append_of_le_length hkl]; exact hk, by rw [hsz, c3]⟩
        · refine ⟨ops.length, os1, l1, by rw [List.take_append_of_le_length (le_refl _), List.take_length]; exact hp, ?_⟩
          rw [List.take_of_length_le (by omega)] at hk
          rw [hp] at hk
          simp only [Option.some.injEq, Prod.mk.injEq] at hk
          rw [hk.2, hsz, c3]
      · exact ⟨ops.length + 1, _, _, by rw [List.take_of_length_le (by simp)]; exact hrr, by rw [hi'.size, c3]⟩
    · intro j os'' l'' hj
      by_cases hjl : j ≤ ops.length
      · rw [List.take_append_of_le_length hjl] at hj
        exact (hmax j os'' l'' hj).trans c2
      · rw [List.take_of_length_le (by simp; omega), hrr] at hj
        simp only [Option.some.injEq, Prod.mk.injEq] at hj
        rw [← hj.2, hi'.size]
        omega

/-- A history with removal and reuse: the removed bucket 1 is handed out again. -/
def sampleOps : List (Op Char) := [.append 'a', .append 'b', .prepend 'c', .remove 1, .insertAfter 0 'd']

example : (idealRun ⟨[], [], 0⟩ sampleOps).map (fun r => (r.2.live, r.2.free, r.2.bound)) =
    some ([(2, 'c'), (0, 'a'), (1, 'd')], [], 3) := rfl
example : (run new sampleOps).map (fun r => (r.2.size, r.2.head, r.2.tail, index r.2 1, index r.2 7)) =
    some (3, some 2, some 1, some 'd', none) := rfl

end Ferlium.LinkedList
