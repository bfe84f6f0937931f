import Verif.Model.Intern
import Mathlib.Data.List.Forall2
import Mathlib.Tactic.Common

/-! Facts about unfoldings, and about storing one kind. -/

namespace Ferlium.Intern

/-- Definitions of references. -/
abbrev Look := Ref → Option Kind

theorem Same.refl (L : Look) (r : Ref) : Same L L r r := fun _ => rfl
theorem Same.symm {L L' : Look} {r r' : Ref} (h : Same L L' r r') : Same L' L r' r := fun n => (h n).symm
theorem Same.trans {L L' L'' : Look} {r r' r'' : Ref} (h : Same L L' r r') (h' : Same L' L'' r' r'') :
    Same L L'' r r'' := fun n => (h n).trans (h' n)

theorem forall2_of_maps {α β γ : Type} (f : Nat → α → γ) (g : Nat → β → γ) :
    ∀ (l : List α) (l' : List β), (∀ n, l.map (f n) = l'.map (g n)) →
      List.Forall₂ (fun a b => ∀ n, f n a = g n b) l l'
  | [], [], _ => .nil
  | [], _ :: _, h => by simpa using h 0
  | _ :: _, [], h => by simpa using h 0
  | a :: l, b :: l', h => by
    simp only [List.map_cons, List.cons.injEq] at h
    exact .cons (fun n => (h n).1) (forall2_of_maps f g l l' fun n => (h n).2)

theorem Same.kids {L L' : Look} {r r' : Ref} {k : Kind} (h : Same L L' r r') (hk : L r = some k) :
    ∃ k', L' r' = some k' ∧ k.head = k'.head ∧ List.Forall₂ (Same L L') k.kids k'.kids := by
  have h1 := h 1
  simp only [unfold, hk] at h1
  match hk' : L' r' with
  | none => simp [hk'] at h1
  | some k' =>
    simp only [hk', Tree.node.injEq] at h1
    refine ⟨k', rfl, h1.1, forall2_of_maps _ _ _ _ fun n => ?_⟩
    have h2 := h (n + 1)
    simp only [unfold, hk, hk', Tree.node.injEq] at h2
    exact h2.2

theorem map_eq_of_forall2 {α β γ : Type} {R : α → β → Prop} {f : α → γ} {g : β → γ}
    (h : ∀ a b, R a b → f a = g b) {l : List α} {l' : List β} (hl : List.Forall₂ R l l') :
    l.map f = l'.map g := by
  induction hl with
  | nil => rfl
  | cons hab _ ih => simp [h _ _ hab, ih]

/-- References that are related by a bisimulation mean the same. -/
theorem same_of_bisim {L L' : Look} {R : Ref → Ref → Prop}
    (hR : ∀ r r', R r r' → ∃ k k', L r = some k ∧ L' r' = some k' ∧ k.head = k'.head ∧
      List.Forall₂ R k.kids k'.kids) {r r' : Ref} (h : R r r') : Same L L' r r' := by
  intro n
  induction n generalizing r r' with
  | zero => rfl
  | succ n ih =>
    obtain ⟨k, k', hk, hk', hh, hf⟩ := hR r r' h
    simp only [unfold, hk, hk', hh, Tree.node.injEq, true_and]
    exact map_eq_of_forall2 (fun a b hab => ih hab) hf

theorem forall2_mem_left {α β : Type} {R : α → β → Prop} {l : List α} {l' : List β}
    (h : List.Forall₂ R l l') {a : α} (ha : a ∈ l) : ∃ b ∈ l', R a b := by
  induction h with
  | nil => simp at ha
  | cons hab _ ih =>
    rcases List.mem_cons.1 ha with rfl | ha
    · exact ⟨_, List.mem_cons_self, hab⟩
    · obtain ⟨b, hb, hr⟩ := ih ha; exact ⟨b, List.mem_cons_of_mem _ hb, hr⟩

theorem forall2_mem_right {α β : Type} {R : α → β → Prop} {l : List α} {l' : List β}
    (h : List.Forall₂ R l l') {b : β} (hb : b ∈ l') : ∃ a ∈ l, R a b := by
  induction h with
  | nil => simp at hb
  | cons hab _ ih =>
    rcases List.mem_cons.1 hb with rfl | hb
    · exact ⟨_, List.mem_cons_self, hab⟩
    · obtain ⟨a, ha, hr⟩ := ih hb; exact ⟨a, List.mem_cons_of_mem _ ha, hr⟩

theorem Same.uses {L L' : Look} {r r' s : Ref} (h : Same L L' r r') (hu : Uses L r s) :
    ∃ s', Uses L' r' s' ∧ Same L L' s s' := by
  obtain ⟨k, hk, hs⟩ := hu
  obtain ⟨k', hk', _, hf⟩ := h.kids hk
  obtain ⟨s', hs', hsame⟩ := forall2_mem_left hf hs
  exact ⟨s', ⟨k', hk', hs'⟩, hsame⟩

theorem Same.reaches {L L' : Look} {r r' s : Ref} (h : Same L L' r r') (hu : Reaches L r s) :
    ∃ s', Reaches L' r' s' ∧ Same L L' s s' := by
  induction hu with
  | one hu => obtain ⟨s', h1, h2⟩ := h.uses hu; exact ⟨s', .one h1, h2⟩
  | more _ hu ih =>
    obtain ⟨s', h1, h2⟩ := ih
    obtain ⟨s'', h3, h4⟩ := h2.uses hu
    exact ⟨s'', .more h1 h3, h4⟩

theorem Reaches.trans {L : Look} {r s t : Ref} (h : Reaches L r s) (h' : Reaches L s t) : Reaches L r t := by
  induction h' with
  | one hu => exact .more h hu
  | more _ hu ih => exact .more ih hu

/-- All references exist. -/
def Closed (L : Look) : Prop := ∀ r k, L r = some k → ∀ s ∈ k.kids, ∃ k', L s = some k'

/-- More definitions. -/
def Ext (L L' : Look) : Prop := ∀ r k, L r = some k → L' r = some k

theorem Ext.same {L L' : Look} (h : Ext L L') (hc : Closed L) {r : Ref} {k : Kind} (hr : L r = some k) :
    Same L L' r r := by
  refine same_of_bisim (R := fun a b => a = b ∧ ∃ k, L a = some k) ?_ ⟨rfl, k, hr⟩
  rintro a _ ⟨rfl, ka, hka⟩
  refine ⟨ka, ka, hka, h _ _ hka, rfl, ?_⟩
  rw [List.forall₂_same]
  exact fun s hs => ⟨rfl, hc _ _ hka _ hs⟩

theorem Reaches.target {L : Look} (hc : Closed L) {r s : Ref} (h : Reaches L r s) : ∃ k, L s = some k := by
  cases h with
  | one hu => obtain ⟨k, hk, hs⟩ := hu; exact hc _ _ hk _ hs
  | more _ hu => obtain ⟨k, hk, hs⟩ := hu; exact hc _ _ hk _ hs

theorem Reaches.source {L : Look} {r s : Ref} (h : Reaches L r s) : ∃ k, L r = some k := by
  induction h with
  | one hu => obtain ⟨k, hk, _⟩ := hu; exact ⟨k, hk⟩
  | more _ _ ih => exact ih

theorem Reaches.ext {L L' : Look} (h : Ext L L') {r s : Ref} (hr : Reaches L r s) : Reaches L' r s := by
  induction hr with
  | one hu => obtain ⟨k, hk, hs⟩ := hu; exact .one ⟨k, h _ _ hk, hs⟩
  | more _ hu ih => obtain ⟨k, hk, hs⟩ := hu; exact .more ih ⟨k, h _ _ hk, hs⟩

/-- From old references, only old references are reached. -/
theorem Reaches.restrict {L L' : Look} (h : Ext L L') (hc : Closed L) {r s : Ref} {k : Kind}
    (hk : L r = some k) (hr : Reaches L' r s) : Reaches L r s := by
  induction hr with
  | one hu =>
    obtain ⟨k', hk', hs⟩ := hu
    rw [h _ _ hk] at hk'; cases hk'
    exact .one ⟨k, hk, hs⟩
  | more _ hu ih =>
    obtain ⟨k1, hk1⟩ := ih.target hc
    obtain ⟨k', hk', hs⟩ := hu
    rw [h _ _ hk1] at hk'; cases hk'
    exact .more ih ⟨_, hk1, hs⟩

/-- The first step of a path. -/
theorem Reaches.first {L : Look} {r t : Ref} (h : Reaches L r t) :
    ∃ s, Uses L r s ∧ (s = t ∨ Reaches L s t) := by
  induction h with
  | one hu => exact ⟨_, hu, .inl rfl⟩
  | more _ hu ih =>
    obtain ⟨s, h1, h2⟩ := ih
    rcases h2 with rfl | h2
    · exact ⟨s, h1, .inr (.one hu)⟩
    · exact ⟨s, h1, .inr (.more h2 hu)⟩

/-! ## The table -/

/-- The names ascend, and each has a type. -/
def Kind.Sorted (k : Kind) : Prop :=
  match k.head with
  | .variant ns => ns.Pairwise (· ≤ ·) ∧ ns.length = k.kids.length
  | .record ns => ns.Pairwise (· ≤ ·) ∧ ns.length = k.kids.length
  | _ => True

theorem Kind.Sorted.of_head {k k' : Kind} (h : k.Sorted) (hh : k'.head = k.head)
    (hl : k'.kids.length = k.kids.length) : k'.Sorted := by
  unfold Kind.Sorted at *
  rw [hh]
  cases hk : k.head <;> simp_all

/-- The effect arguments of a named type depend on the definition; the names ascend. -/
def EffOk (eff : Nat → List (List Nat)) (k : Kind) : Prop :=
  (∀ d e, k.head = .named d e → e = eff d) ∧ k.Sorted

/-- References to a group of kinds, as references to a stored world. -/
def sub (w : Nat) (map : List Nat) : Ref → Ref
  | .loc b => .glob w ((map[b]?).getD 0)
  | r => r

/-- A group of kinds is stored in a world. -/
def Matches (L : Look) (lw : List Kind) (w : Nat) (map : List Nat) : Prop :=
  map.length = lw.length ∧ ∀ (j : Nat) (k : Kind), lw[j]? = some k → ∃ (m : Nat) (e : Kind), map[j]? = some m ∧
    L (.glob w m) = some e ∧ e.head = k.head ∧ e.kids = k.kids.map (sub w map)

/-- How tables come about: inner types are in the table already, or in the same group. -/
inductive Grown : Universe → Prop
  | new : Grown .new
  | plain {U : Universe} {k : Kind} : Grown U → (∀ r ∈ k.kids, ∃ k', U.look r = some k') →
    Grown { U with main := U.main ++ [k] }
  | group {U : Universe} {kinds : List Kind} : Grown U →
    (∀ k ∈ kinds, ∀ r ∈ k.kids, ∃ k', Universe.look ⟨U.main, U.recs ++ [kinds], U.cache⟩ r = some k') →
    Grown ⟨U.main, U.recs ++ [kinds], U.cache⟩
  | cache {U : Universe} {c : List (List Kind × Nat × List Nat)} : Grown U → Grown { U with cache := c }

/-- The invariant of the table. -/
structure Inv (eff : Nat → List (List Nat)) (U : Universe) : Prop where
  closed : Closed U.look
  effects : ∀ r k, U.look r = some k → EffOk eff k
  canon : ∀ r r' k k', U.look r = some k → U.look r' = some k' → Same U.look U.look r r' → r = r'
  cyc : ∀ r r', Reaches U.look r r' → Reaches U.look r' r →
    ∃ w i j, r = .glob (w + 1) i ∧ r' = .glob (w + 1) j
  strong : ∀ w i j k k', U.look (.glob (w + 1) i) = some k → U.look (.glob (w + 1) j) = some k' →
    Reaches U.look (.glob (w + 1) i) (.glob (w + 1) j)
  cache : ∀ e ∈ U.cache, Matches U.look e.1 e.2.1 e.2.2
  grown : Grown U

theorem Matches.ext {L L' : Look} (h : Ext L L') {lw : List Kind} {w : Nat} {map : List Nat}
    (hm : Matches L lw w map) : Matches L' lw w map :=
  ⟨hm.1, fun j k hk => by
    obtain ⟨m, e, h1, h2, h3⟩ := hm.2 j k hk
    exact ⟨m, e, h1, h _ _ h2, h3⟩⟩

theorem Inv.new (eff : Nat → List (List Nat)) : Inv eff .new := by
  have hno : ∀ r, Universe.new.look r = none := by
    intro r
    cases r with
    | loc i => rfl
    | glob w i => cases w <;> simp [Universe.look, Universe.world, Universe.new]
  have hre : ∀ r r', ¬ Reaches Universe.new.look r r' := by
    intro r r' h
    obtain ⟨k, hk⟩ := h.source
    rw [hno] at hk; cases hk
  constructor
  · intro r k h; rw [hno] at h; cases h
  · intro r k h; rw [hno] at h; cases h
  · intro r _ k _ h; rw [hno] at h; cases h
  · intro r r' h; exact absurd h (hre _ _)
  · intro w i j k k' h; rw [hno] at h; cases h
  · intro e he; simp [Universe.new] at he
  · exact .new

/-- Adding definitions. -/
theorem Inv.extend {eff : Nat → List (List Nat)} {U U' : Universe} (hI : Inv eff U)
    (hext : Ext U.look U'.look)
    (hkids : ∀ r k, U.look r = none → U'.look r = some k →
      (∀ s ∈ k.kids, ∃ k', U'.look s = some k') ∧ EffOk eff k)
    (hold : ∀ r r' k k', U.look r = none → U'.look r = some k → U.look r' = some k' →
      ¬ Same U'.look U'.look r r')
    (hnew : ∀ r r' k k', U.look r = none → U'.look r = some k → U.look r' = none → U'.look r' = some k' →
      Same U'.look U'.look r r' → r = r')
    (hcyc : ∀ r r' k k', U.look r = none → U'.look r = some k → U.look r' = none → U'.look r' = some k' →
      Reaches U'.look r r' → Reaches U'.look r' r → ∃ w i j, r = .glob (w + 1) i ∧ r' = .glob (w + 1) j)
    (hstrong : ∀ w i j k k', U.look (.glob (w + 1) i) = none ∨ U.look (.glob (w + 1) j) = none →
      U'.look (.glob (w + 1) i) = some k → U'.look (.glob (w + 1) j) = some k' →
      Reaches U'.look (.glob (w + 1) i) (.glob (w + 1) j))
    (hcache : ∀ e ∈ U'.cache, Matches U'.look e.1 e.2.1 e.2.2)
    (hgrown : Closed U'.look → Grown U') : Inv eff U' := by
  have hclosed : Closed U'.look := by
    intro r k hk s hs
    match hr : U.look r with
    | none => exact (hkids r k hr hk).1 s hs
    | some k0 =>
      rw [hext _ _ hr] at hk; cases hk
      obtain ⟨k', hk'⟩ := hI.closed _ _ hr _ hs
      exact ⟨k', hext _ _ hk'⟩
  refine ⟨hclosed, ?_, ?_, ?_, ?_, hcache, hgrown hclosed⟩
  · intro r k hk
    match hr : U.look r with
    | none => exact (hkids r k hr hk).2
    | some k0 => rw [hext _ _ hr] at hk; cases hk; exact hI.effects _ _ hr
  · intro r r' k k' hk hk' hs
    match hr : U.look r, hr' : U.look r' with
    | none, none => exact hnew r r' k k' hr hk hr' hk' hs
    | none, some _ => exact absurd hs (hold r r' _ _ hr hk hr')
    | some _, none => exact absurd hs.symm (hold r' r _ _ hr' hk' hr)
    | some _, some _ =>
      exact hI.canon r r' _ _ hr hr'
        (((hext.same hI.closed hr).trans hs).trans (hext.same hI.closed hr').symm)
  · intro r r' h1 h2
    obtain ⟨k, hk⟩ := h1.source
    obtain ⟨k', hk'⟩ := h2.source
    match hr : U.look r, hr' : U.look r' with
    | none, none => exact hcyc r r' k k' hr hk hr' hk' h1 h2
    | none, some _ =>
      obtain ⟨_, h⟩ := (h2.restrict hext hI.closed hr').target hI.closed
      rw [hr] at h; cases h
    | some _, none =>
      obtain ⟨_, h⟩ := (h1.restrict hext hI.closed hr).target hI.closed
      rw [hr'] at h; cases h
    | some _, some _ =>
      exact hI.cyc r r' (h1.restrict hext hI.closed hr) (h2.restrict hext hI.closed hr')
  · intro w i j k k' hk hk'
    match hr : U.look (.glob (w + 1) i), hr' : U.look (.glob (w + 1) j) with
    | none, _ => exact hstrong w i j k k' (.inl hr) hk hk'
    | some _, none => exact hstrong w i j k k' (.inr hr') hk hk'
    | some _, some _ => exact (hI.strong w i j _ _ hr hr').ext hext

/-! ## One kind -/

theorem indexOf_some {α : Type} [DecidableEq α] {a : α} :
    ∀ {l : List α} {i : Nat}, indexOf a l = some i → l[i]? = some a
  | [], _, h => by simp [indexOf] at h
  | b :: l, i, h => by
    rw [indexOf] at h
    split at h
    · next e => cases h; simp [e]
    · match hi : indexOf a l with
      | none => simp [hi] at h
      | some j =>
        simp only [hi, Option.map_some, Option.some.injEq] at h
        subst h
        simpa using indexOf_some hi

theorem indexOf_none {α : Type} [DecidableEq α] {a : α} :
    ∀ {l : List α}, indexOf a l = none → a ∉ l
  | [], _ => by simp
  | b :: l, h => by
    rw [indexOf] at h
    split at h
    · cases h
    · next e =>
      have := indexOf_none (l := l) (a := a) (by simpa using h)
      simp only [List.mem_cons, not_or]
      exact ⟨fun e' => e e'.symm, this⟩

theorem worldsToCheck_mem : ∀ {last : Option Nat} {rs : List Ref} {ws : List Nat},
    worldsToCheck last rs = some ws → ∀ w i, .glob (w + 1) i ∈ rs → last ≠ some (w + 1) → (w + 1) ∈ ws
  | _, [], _, _, _, _, hm, _ => by simp at hm
  | _, .loc _ :: _, _, h, _, _, _, _ => by simp [worldsToCheck] at h
  | last, .glob 0 _ :: rest, ws, h, w, i, hm, hl => by
    rw [worldsToCheck] at h
    simp only [List.mem_cons, Ref.glob.injEq, reduceCtorEq, false_and, false_or] at hm
    exact worldsToCheck_mem h w i hm hl
  | last, .glob (v + 1) x :: rest, ws, h, w, i, hm, hl => by
    rw [worldsToCheck] at h
    match hr : worldsToCheck (some (v + 1)) rest with
    | none => simp [hr] at h
    | some ws' =>
      simp only [hr, Option.map_some, Option.some.injEq] at h
      by_cases hv : v = w
      · subst hv
        rw [if_neg hl] at h
        rw [← h]; exact List.mem_cons_self
      · have hm' : .glob (w + 1) i ∈ rest := by
          rcases List.mem_cons.1 hm with e | e
          · simp only [Ref.glob.injEq, Nat.add_right_cancel_iff] at e
            exact absurd e.1.symm hv
          · exact e
        have := worldsToCheck_mem hr w i hm' (by simpa using hv)
        rw [← h]; split
        · exact this
        · exact List.mem_cons_of_mem _ this

theorem worldsToCheck_glob : ∀ {last : Option Nat} {rs : List Ref} {ws : List Nat},
    worldsToCheck last rs = some ws → ∀ j, .loc j ∉ rs
  | _, [], _, _, _ => by simp
  | _, .loc _ :: _, _, h, _ => by simp [worldsToCheck] at h
  | last, .glob 0 _ :: rest, ws, h, j => by
    rw [worldsToCheck] at h
    simpa using worldsToCheck_glob h j
  | last, .glob (v + 1) x :: rest, ws, h, j => by
    rw [worldsToCheck] at h
    match hr : worldsToCheck (some (v + 1)) rest with
    | none => simp [hr] at h
    | some ws' => simpa using worldsToCheck_glob hr j

theorem worldsToCheck_none : ∀ {last : Option Nat} {rs : List Ref},
    worldsToCheck last rs = none → ∃ j, .loc j ∈ rs
  | _, [], h => by simp [worldsToCheck] at h
  | _, .loc j :: _, _ => ⟨j, List.mem_cons_self⟩
  | last, .glob 0 _ :: rest, h => by
    rw [worldsToCheck] at h
    obtain ⟨j, hj⟩ := worldsToCheck_none h
    exact ⟨j, List.mem_cons_of_mem _ hj⟩
  | last, .glob (v + 1) x :: rest, h => by
    rw [worldsToCheck] at h
    obtain ⟨j, hj⟩ := worldsToCheck_none (last := some (v + 1)) (rs := rest) (by simpa using h)
    exact ⟨j, List.mem_cons_of_mem _ hj⟩

theorem findIn_some {U : Universe} {k : Kind} : ∀ {ws : List Nat} {r : Ref},
    findIn U k ws = some r → U.look r = some k
  | [], _, h => by simp [findIn] at h
  | w :: ws, r, h => by
    rw [findIn] at h
    split at h
    · next i hi => cases h; exact indexOf_some hi
    · exact findIn_some h

theorem findIn_none {U : Universe} {k : Kind} : ∀ {ws : List Nat},
    findIn U k ws = none → ∀ w ∈ ws, k ∉ U.world w
  | [], _, _, hw => by simp at hw
  | v :: ws, h, w, hw => by
    rw [findIn] at h
    split at h
    · cases h
    · next hi =>
      rcases List.mem_cons.1 hw with rfl | hw
      · exact indexOf_none hi
      · exact findIn_none h w hw

theorem look_mem {U : Universe} {w i : Nat} {k : Kind} (h : U.look (.glob w i) = some k) : k ∈ U.world w :=
  List.mem_of_getElem? h

/-- Every member of a recursive world uses a member of it. -/
theorem Inv.inside {eff : Nat → List (List Nat)} {U : Universe} (hI : Inv eff U) {w i : Nat} {k : Kind}
    (h : U.look (.glob (w + 1) i) = some k) : ∃ j, .glob (w + 1) j ∈ k.kids := by
  have hr := hI.strong w i i k k h h
  obtain ⟨s, ⟨k', hk', hs⟩, h2⟩ := hr.first
  rw [h] at hk'; cases hk'
  rcases h2 with rfl | h2
  · exact ⟨i, hs⟩
  · obtain ⟨v, a, b, e1, e2⟩ := hI.cyc _ _ (.one ⟨k, h, hs⟩) h2
    cases e1
    exact ⟨b, e2 ▸ hs⟩

theorem kids_eq {L : Look} (hcanon : ∀ r r' k k', L r = some k → L r' = some k' → Same L L r r' → r = r')
    {l l' : List Ref} (hf : List.Forall₂ (Same L L) l l') (h : ∀ s ∈ l, ∃ k, L s = some k)
    (h' : ∀ s ∈ l', ∃ k, L s = some k) : l = l' := by
  induction hf with
  | nil => rfl
  | cons hab _ ih =>
    obtain ⟨k, hk⟩ := h _ List.mem_cons_self
    obtain ⟨k', hk'⟩ := h' _ List.mem_cons_self
    rw [hcanon _ _ _ _ hk hk' hab,
      ih (fun s hs => h s (List.mem_cons_of_mem _ hs)) (fun s hs => h' s (List.mem_cons_of_mem _ hs))]

theorem insertNonRecursive_spec {eff : Nat → List (List Nat)} {U : Universe} (hI : Inv eff U) {k : Kind}
    {ws : List Nat} (hws : worldsToCheck none k.kids = some ws)
    (hkids : ∀ s ∈ k.kids, ∃ k', U.look s = some k') (heff : EffOk eff k) :
    Inv eff (insertNonRecursive U k ws).1 ∧ Ext U.look (insertNonRecursive U k ws).1.look ∧
      (insertNonRecursive U k ws).1.look (insertNonRecursive U k ws).2 = some k := by
  unfold insertNonRecursive
  match hf : findIn U k ws with
  | some r => exact ⟨hI, fun _ _ h => h, findIn_some hf⟩
  | none =>
    match hm : indexOf k U.main with
    | some i => exact ⟨hI, fun _ _ h => h, indexOf_some hm⟩
    | none =>
      simp only
      generalize hU' : ({ U with main := U.main ++ [k] } : Universe) = U'
      have hlook : ∀ w i, U'.look (.glob w i) =
          if w = 0 ∧ i = U.main.length then some k else U.look (.glob w i) := by
        intro w i
        subst hU'
        cases w with
        | succ w => simp [Universe.look, Universe.world]
        | zero =>
          simp only [Universe.look, Universe.world, true_and]
          split
          · next e => subst e; simp
          · next e =>
            by_cases hi : i < U.main.length
            · rw [List.getElem?_append_left hi]
            · rw [List.getElem?_eq_none (by simp; omega), List.getElem?_eq_none (by omega)]
      have hext : Ext U.look U'.look := by
        intro r k' hk'
        cases r with
        | loc i => cases hk'
        | glob w i =>
          rw [hlook]
          split
          · next e =>
            obtain ⟨rfl, rfl⟩ := e
            simp [Universe.look, Universe.world] at hk'
          · exact hk'
      have hnew : ∀ r k', U.look r = none → U'.look r = some k' → r = .glob 0 U.main.length ∧ k' = k := by
        intro r k' h h'
        cases r with
        | loc i => cases h'
        | glob w i =>
          rw [hlook] at h'
          split at h'
          · next e => obtain ⟨rfl, rfl⟩ := e; exact ⟨rfl, (Option.some.inj h').symm⟩
          · rw [h] at h'; cases h'
      have hk : U'.look (.glob 0 U.main.length) = some k := by rw [hlook]; simp
      refine ⟨?_, hext, hk⟩
      refine hI.extend hext ?_ ?_ ?_ ?_ ?_ ?_ fun _ => hU' ▸ hI.grown.plain hkids
      · intro r k' h h'
        obtain ⟨rfl, rfl⟩ := hnew r k' h h'
        exact ⟨fun s hs => (hkids s hs).imp fun _ h => hext _ _ h, heff⟩
      · intro r r' k1 k2 h h1 h2 hs
        obtain ⟨rfl, rfl⟩ := hnew r k1 h h1
        obtain ⟨k3, h3, hh, hfa⟩ := hs.kids hk
        rw [hext _ _ h2] at h3; cases h3
        have hfa' : List.Forall₂ (Same U.look U.look) k1.kids k2.kids := by
          have hv2 := hI.closed _ _ h2
          clear hws heff hm hf hk h2 h1 hh hs hnew hlook hU'
          generalize k1.kids = l1 at *
          generalize k2.kids = l2 at *
          induction hfa with
          | nil => exact .nil
          | cons hab hrest ih =>
            obtain ⟨_, ha⟩ := hkids _ List.mem_cons_self
            obtain ⟨_, hb⟩ := hv2 _ List.mem_cons_self
            exact .cons (((hext.same hI.closed ha).trans hab).trans (hext.same hI.closed hb).symm)
              (ih (fun s hs => hkids s (List.mem_cons_of_mem _ hs))
                (fun s hs => hv2 s (List.mem_cons_of_mem _ hs)))
        have hkk := kids_eq hI.canon hfa' hkids (hI.closed _ _ h2)
        have hkind : k1 = k2 := by
          cases k1; cases k2; simp_all
        subst hkind
        cases r' with
        | loc i => cases h2
        | glob w i =>
          cases w with
          | zero => exact indexOf_none hm (look_mem h2)
          | succ w =>
            obtain ⟨j, hj⟩ := hI.inside h2
            exact findIn_none hf (w + 1) (worldsToCheck_mem hws w j hj (by simp)) (look_mem h2)
      · intro r r' k1 k2 h h1 h' h2 _
        rw [(hnew r k1 h h1).1, (hnew r' k2 h' h2).1]
      · intro r r' k1 k2 h h1 h' h2 hr _
        obtain ⟨rfl, rfl⟩ := hnew r k1 h h1
        exfalso
        obtain ⟨s, ⟨k3, h3, hs⟩, hrest⟩ := hr.first
        rw [hk] at h3; cases h3
        obtain ⟨k4, h4⟩ := hkids s hs
        rcases hrest with rfl | hrest
        · rw [h'] at h4; cases h4
        · obtain ⟨_, h5⟩ := (hrest.restrict hext hI.closed h4).target hI.closed
          rw [h'] at h5; cases h5
      · intro w i j k1 k2 hor h1 h2
        exfalso
        rcases hor with h | h
        · simpa using (hnew _ _ h h1).1
        · simpa using (hnew _ _ h h2).1
      · intro e he
        refine (hI.cache e ?_).ext hext
        subst hU'; exact he

end Ferlium.Intern
