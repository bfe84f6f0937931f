import Verif.Model.SpecTable
import Verif.Proofs.GraphScc
import Mathlib.Tactic

/-! Helper lemmas for C37: what a function is (its unfolding), and renumbering. -/

namespace Ferlium.SpecTable

variable {S : Type}

/-! ### Specification: the unfolding of a function -/

/-- What a function is, as far as its callers can tell: its code with every function it names replaced
by what that function is, to some depth.  Functions of other modules and native ones are known by id,
functions of the module show under which id their metadata is found. -/
inductive Tree (S : Type) where
  | external (id : Id)
  | native (id : Id)
  | dangling
  | deeper
  | node (label : Id) (shape : S) (operands closures : List (Tree S))

/-- The unfolding of `id` in module `M` to depth `n`. -/
def unfold (M : Nat) (m : Mod S) : Nat → Id → Tree S
  | 0, _ => .deeper
  | n + 1, id =>
    if id.module_ = M then
      if id.function < m.functions.length then
        match m.functions[id.function]? with
        | some (some b) => .node id b.shape (b.operands.map (unfold M m n)) (b.closures.map (unfold M m n))
        | _ => .native id
      else
        match m.specs[id.function - m.functions.length]? with
        | some s =>
          .node s.original s.body.shape (s.body.operands.map (unfold M m n))
            (s.body.closures.map (unfold M m n))
        | none => .dangling
    else .external id

/-- The bodies of a module. -/
def Mod.bodies (m : Mod S) : List (Body S) := m.functions.filterMap id ++ m.specs.map Spec.body

/-- Every function of the module that is named in it exists. -/
def InRange (M : Nat) (m : Mod S) : Prop :=
  ∀ b ∈ m.bodies, ∀ id ∈ b.ids, id.module_ = M → id.function < m.functions.length + m.specs.length

/-! ### Lists -/

theorem mapM_some {α β : Type} {f : α → Option β} {g : α → β} : ∀ {l : List α},
    (∀ x ∈ l, f x = some (g x)) → l.mapM f = some (l.map g) := by
  intro l
  induction l with
  | nil => intro _; rfl
  | cons a l ih =>
    intro h
    rw [List.mapM_cons, h a (by simp), ih (fun x hx => h x (by simp [hx]))]
    rfl

/-- Keep the elements at the positions satisfying `p`. -/
def retain {α : Type} (p : Nat → Bool) : List α → Nat → List α
  | [], _ => []
  | a :: l, i => if p i then a :: retain p l (i + 1) else retain p l (i + 1)

/-- Number of kept positions before `k`. -/
def rank (p : Nat → Bool) (k : Nat) : Nat := (List.range k).countP p

theorem rank_succ' (p : Nat → Bool) (k : Nat) :
    rank p (k + 1) = (if p 0 then 1 else 0) + rank (fun x => p (x + 1)) k := by
  unfold rank
  rw [List.range_succ_eq_map, List.countP_cons, List.countP_map]
  have : (p ∘ Nat.succ) = fun x => p (x + 1) := rfl
  rw [this]
  omega

theorem retain_get {α : Type} : ∀ (l : List α) (p : Nat → Bool) (i k : Nat), k < l.length →
    p (i + k) = true → (retain p l i)[rank (fun x => p (i + x)) k]? = l[k]? := by
  intro l
  induction l with
  | nil => intro p i k h; simp at h
  | cons a l ih =>
    intro p i k h hp
    cases k with
    | zero =>
      simp only [Nat.add_zero] at hp
      simp [retain, hp, rank]
    | succ k =>
      have := ih p (i + 1) k (by simpa using h) (by rw [← hp]; congr 1; omega)
      rw [rank_succ']
      have he : (fun x => p (i + (x + 1))) = fun x => p (i + 1 + x) := by
        funext x; congr 1; omega
      rw [he]
      simp only [retain, Nat.add_zero, List.getElem?_cons_succ]
      split_ifs with h1
      · rw [Nat.add_comm 1 (rank _ _), List.getElem?_cons_succ, this]
      · rw [Nat.zero_add, this]

theorem retain_length {α : Type} : ∀ (l : List α) (p : Nat → Bool) (i : Nat),
    (retain p l i).length = rank (fun x => p (i + x)) l.length := by
  intro l
  induction l with
  | nil => intro p i; simp [retain, rank]
  | cons a l ih =>
    intro p i
    have he : (fun x => p (i + (x + 1))) = fun x => p (i + 1 + x) := by
      funext x; congr 1; omega
    rw [List.length_cons, rank_succ', he]
    simp only [retain, Nat.add_zero]
    split_ifs with h1
    · rw [List.length_cons, ih]; omega
    · rw [ih]; omega

theorem compactLoop_get : ∀ (ks : List (Option Nat)) (i r k : Nat), ks[k]? = some (some (i + k)) →
    (compactLoop ks i r)[k]? =
      some (some (r + rank (fun x => decide (ks[x]? = some (some (i + x)))) k)) := by
  intro ks
  induction ks with
  | nil => intro i r k h; simp at h
  | cons a ks ih =>
    intro i r k h
    cases k with
    | zero =>
      simp only [List.getElem?_cons_zero, Option.some.injEq, Nat.add_zero] at h
      subst h
      simp [compactLoop, rank]
    | succ k =>
      simp only [List.getElem?_cons_succ] at h
      have hk : ks[k]? = some (some (i + 1 + k)) := by rw [h]; congr 2; omega
      rw [rank_succ']
      simp only [List.getElem?_cons_zero, List.getElem?_cons_succ, Nat.add_zero, Option.some.injEq,
        decide_eq_true_eq]
      have he : (fun x => decide (ks[x]? = some (some (i + (x + 1))))) =
          fun x => decide (ks[x]? = some (some (i + 1 + x))) := by
        funext x; rw [show i + (x + 1) = i + 1 + x by omega]
      rw [he]
      simp only [compactLoop]
      split_ifs with h1
      · rw [List.getElem?_cons_succ, ih (i + 1) (r + 1) k hk]
        congr 2; omega
      · rw [List.getElem?_cons_succ, ih (i + 1) r k hk]
        congr 2; omega

/-! ### Renumbering -/

theorem Table.indexOf_some {t : Table} {id : Id} {i : Nat} (h : t.indexOf id = some i) :
    id = t.idOf i := by
  unfold Table.indexOf at h
  split_ifs at h with h1 h2
  simp only [Option.some.injEq] at h
  obtain ⟨a, b⟩ := id
  simp only [Table.idOf, Id.mk.injEq]
  simp only at h1 h2 h
  exact ⟨h1, by omega⟩

@[simp] theorem Table.indexOf_idOf (t : Table) (i : Nat) : t.indexOf (t.idOf i) = some i := by
  simp [Table.indexOf, Table.idOf]

/-- Whether position `i` is a survivor. -/
def keeps (kept : List (Option Nat)) (i : Nat) : Bool := decide (kept[i]? = some (some i))

/-- The renaming a table performs. -/
def rename (t : Table) (kept : List (Option Nat)) (id : Id) : Id :=
  match t.indexOf id with
  | some i =>
    match kept[i]? with
    | some (some j) => t.idOf (rank (keeps kept) j)
    | _ => id
  | none => id

/-- Survivors stand for themselves. -/
def Resolved (kept : List (Option Nat)) : Prop :=
  ∀ (i j : Nat), kept[i]? = some (some j) → kept[j]? = some (some j)

theorem remap_eq {t : Table} {kept : List (Option Nat)} (hK : Resolved kept) {id : Id}
    (hr : ∀ i, t.indexOf id = some i → i < kept.length) :
    remap t kept (compactLoop kept 0 0) id = some (rename t kept id) := by
  unfold remap rename
  cases h : t.indexOf id with
  | none => rfl
  | some i =>
    have hi := hr i h
    obtain ⟨k, hk⟩ : ∃ k, kept[i]? = some k := ⟨_, List.getElem?_eq_getElem hi⟩
    simp only [hk]
    cases k with
    | none => rfl
    | some j =>
      have hj := hK i j hk
      have := compactLoop_get kept 0 0 j (by simpa using hj)
      simp only [Nat.zero_add] at this
      simp only [this]
      rfl

/-- A body with renamed functions. -/
def Body.ren (f : Id → Id) (b : Body S) : Body S := ⟨b.shape, b.operands.map f, b.closures.map f⟩

theorem rewriteBody_eq {f : Id → Option Id} {g : Id → Id} {b : Body S}
    (h : ∀ x ∈ b.ids, f x = some (g x)) : rewriteBody f b = some (b.ren g) := by
  unfold rewriteBody
  rw [mapM_some (g := g) (fun x hx => h x (by simp [Body.ids, hx])),
    mapM_some (g := g) (fun x hx => h x (by simp [Body.ids, hx]))]
  rfl

theorem rewriteFunctions_eq {f : Id → Option Id} {g : Id → Id} {l : List (Option (Body S))}
    (h : ∀ b, some b ∈ l → ∀ x ∈ b.ids, f x = some (g x)) :
    rewriteFunctions f l = some (l.map (Option.map (Body.ren g))) := by
  unfold rewriteFunctions
  refine mapM_some ?_
  intro slot hs
  cases slot with
  | none => rfl
  | some b => simp [rewriteBody_eq (h b hs)]

theorem rewriteSpecs_eq {f : Id → Option Id} {g : Id → Id} {kept : List (Option Nat)} :
    ∀ {l : List (Spec S)} {i : Nat}, (∀ s ∈ l, ∀ x ∈ s.body.ids, f x = some (g x)) →
      rewriteSpecs f kept l i =
        some ((retain (keeps kept) l i).map fun s => ⟨s.original, s.body.ren g⟩) := by
  intro l
  induction l with
  | nil => intro i _; rfl
  | cons s l ih =>
    intro i h
    have hk : (keeps kept i = true) ↔ kept[i]? = some (some i) := by simp [keeps]
    simp only [rewriteSpecs, retain]
    have hih := @ih (i + 1) (fun s' hs' => h s' (by simp [hs']))
    by_cases hki : kept[i]? = some (some i)
    · rw [if_pos hki, if_pos (hk.mpr hki), rewriteBody_eq (h s (by simp)), hih]
      rfl
    · rw [if_neg hki, if_neg (fun hc => hki (hk.mp hc)), hih]

/-- Two ids are represented by the same function afterwards. -/
def Rel (t : Table) (kept : List (Option Nat)) (a b : Id) : Prop :=
  a = b ∨ ∃ i j k, t.indexOf a = some i ∧ t.indexOf b = some j ∧ kept[i]? = some (some k) ∧
    kept[j]? = some (some k)

theorem Rel.rename {t : Table} {kept : List (Option Nat)} {a b : Id} (h : Rel t kept a b) :
    rename t kept a = rename t kept b := by
  rcases h with rfl | ⟨i, j, k, h1, h2, h3, h4⟩
  · rfl
  · simp [SpecTable.rename, h1, h2, h3, h4]

/-- The bodies of `a` and `b` agree up to the representation of the functions they name. -/
structure Agree (t : Table) (kept : List (Option Nat)) (a b : Spec S) : Prop where
  original : a.original = b.original
  shape : a.body.shape = b.body.shape
  operands : List.Forall₂ (Rel t kept) a.body.operands b.body.operands
  closures : List.Forall₂ (Rel t kept) a.body.closures b.body.closures

/-- What a client of `rewrite` has to show. -/
structure Plan (M : Nat) (m : Mod S) (kept : List (Option Nat)) (live : Nat → Prop) : Prop where
  length : kept.length = m.specs.length
  resolved : Resolved kept
  root : ∀ b, some b ∈ m.functions → ∀ id ∈ b.ids, ∀ i, (m.table M).indexOf id = some i → live i
  step : ∀ i s, live i → m.specs[i]? = some s → ∀ id ∈ s.body.ids, ∀ j,
    (m.table M).indexOf id = some j → live j
  keeps : ∀ i, live i → ∃ j, kept[i]? = some (some j) ∧ live j
  agree : ∀ i j a b, live i → kept[i]? = some (some j) → m.specs[i]? = some a → m.specs[j]? = some b →
    Agree (m.table M) kept a b

theorem rename_identity {t : Table} {kept : List (Option Nat)}
    (h : kept = (List.range kept.length).map some) (id : Id) : rename t kept id = id := by
  have hg : ∀ i < kept.length, kept[i]? = some (some i) := by
    intro i hi
    rw [h]
    simp [List.getElem?_range hi]
  unfold rename
  cases hi : t.indexOf id with
  | none => rfl
  | some i =>
    simp only []
    by_cases hlt : i < kept.length
    · rw [hg i hlt]
      simp only []
      have : rank (keeps kept) i = i := by
        unfold rank
        rw [List.countP_eq_length.mpr, List.length_range]
        intro x hx
        simp only [keeps, decide_eq_true_eq]
        exact hg x (by have := List.mem_range.mp hx; omega)
      rw [this]
      exact (Table.indexOf_some hi).symm
    · rw [List.getElem?_eq_none (by omega)]

theorem retain_all {α : Type} {p : Nat → Bool} : ∀ (l : List α) (i : Nat),
    (∀ k < l.length, p (i + k) = true) → retain p l i = l := by
  intro l
  induction l with
  | nil => intro i _; rfl
  | cons a l ih =>
    intro i h
    have h0 := h 0 (by simp)
    simp only [Nat.add_zero] at h0
    simp only [retain, h0, if_true]
    rw [ih (i + 1)]
    intro k hk
    have := h (k + 1) (by simpa using hk)
    rwa [show i + (k + 1) = i + 1 + k by omega] at this

/-- The result of `rewrite`, written as one renaming. -/
theorem rewrite_eq {M : Nat} {m : Mod S} {kept : List (Option Nat)} (hr : InRange M m)
    (hl : kept.length = m.specs.length) (hK : Resolved kept) :
    rewrite (m.table M) kept m =
      some ⟨m.functions.map (Option.map (Body.ren (rename (m.table M) kept))),
        (retain (keeps kept) m.specs 0).map fun s =>
          ⟨s.original, s.body.ren (rename (m.table M) kept)⟩⟩ := by
  have hf : ∀ b ∈ m.bodies, ∀ x ∈ b.ids,
      remap (m.table M) kept (compactLoop kept 0 0) x = some (rename (m.table M) kept x) := by
    intro b hb x hx
    refine remap_eq hK ?_
    intro i hi
    have := Table.indexOf_some hi
    have h2 := hr b hb x hx (by rw [this]; rfl)
    rw [this] at h2
    simp only [Table.idOf, Mod.table] at h2
    omega
  unfold rewrite
  split_ifs with h
  · have hren : rename (m.table M) kept = id := funext (rename_identity h)
    have hbody : ∀ b : Body S, b.ren id = b := by intro b; simp [Body.ren]
    have hg : ∀ i < kept.length, kept[i]? = some (some i) := by
      intro i hi
      rw [h]
      simp [List.getElem?_range hi]
    rw [retain_all m.specs 0 (by
      intro k hk
      simp only [keeps, Nat.zero_add, decide_eq_true_eq]
      exact hg k (by omega))]
    rw [hren]
    have e1 : m.functions.map (Option.map (Body.ren id)) = m.functions := by
      conv_rhs => rw [← List.map_id m.functions]
      refine List.map_congr_left ?_
      intro o _
      cases o <;> simp [hbody]
    have e2 : m.specs.map (fun s => (⟨s.original, s.body.ren id⟩ : Spec S)) = m.specs := by
      conv_rhs => rw [← List.map_id m.specs]
      refine List.map_congr_left ?_
      intro o _
      simp [hbody]
    rw [e1, e2]
  · have e1 := rewriteFunctions_eq (f := remap (m.table M) kept (compactLoop kept 0 0))
      (g := rename (m.table M) kept) (l := m.functions) (by
        intro b hb x hx
        exact hf b (by simp only [Mod.bodies, List.mem_append, List.mem_filterMap]; left; exact ⟨some b, hb, rfl⟩) x hx)
    have e2 := rewriteSpecs_eq (f := remap (m.table M) kept (compactLoop kept 0 0))
      (g := rename (m.table M) kept) (kept := kept) (l := m.specs) (i := 0) (by
        intro s hs x hx
        exact hf s.body (by simp only [Mod.bodies, List.mem_append, List.mem_map]; right; exact ⟨s, hs, rfl⟩) x hx)
    simp only [e1, e2]
    rfl

theorem indexOf_declared {M : Nat} {m : Mod S} {id : Id} (h : (m.table M).indexOf id = none)
    (h1 : id.module_ = M) : id.function < m.functions.length := by
  unfold Table.indexOf at h
  rw [if_pos (by exact h1)] at h
  split_ifs at h with h2
  exact Nat.lt_of_not_le h2

theorem unfold_spec {M : Nat} {m : Mod S} {t : Table} (ht : t = m.table M) {i : Nat} {s : Spec S}
    (h : m.specs[i]? = some s) (n : Nat) :
    unfold M m (n + 1) (t.idOf i) = .node s.original s.body.shape (s.body.operands.map (unfold M m n))
      (s.body.closures.map (unfold M m n)) := by
  subst ht
  unfold SpecTable.unfold
  rw [if_pos (by rfl), if_neg (by show ¬ m.functions.length + i < m.functions.length; omega)]
  have : ((m.table M).idOf i).function - m.functions.length = i := Nat.add_sub_cancel_left _ _
  rw [this, h]

theorem unfold_rewritten {M : Nat} {m : Mod S} {kept : List (Option Nat)} {live : Nat → Prop}
    (hp : Plan M m kept live) :
    ∀ (n : Nat) (id : Id), (∀ i, (m.table M).indexOf id = some i → live i) →
      unfold M ⟨m.functions.map (Option.map (Body.ren (rename (m.table M) kept))),
        (retain (keeps kept) m.specs 0).map fun s =>
          ⟨s.original, s.body.ren (rename (m.table M) kept)⟩⟩ n (rename (m.table M) kept id) =
      unfold M m n id := by
  intro n
  induction n with
  | zero => intro id _; rfl
  | succ n ih =>
    intro id hlive
    cases hi : (m.table M).indexOf id with
    | none =>
      have hren : rename (m.table M) kept id = id := by simp [rename, hi]
      rw [hren]
      simp only [SpecTable.unfold, List.length_map]
      split_ifs with h1 h2
      · rw [List.getElem?_map]
        cases hg : m.functions[id.function]? with
        | none => rfl
        | some slot =>
          cases slot with
          | none => rfl
          | some b =>
            have hmem : some b ∈ m.functions := List.mem_of_getElem? hg
            simp only [Option.map_some, Body.ren, List.map_map]
            have hroot : ∀ c ∈ b.ids, ∀ i, (m.table M).indexOf c = some i → live i := hp.root b hmem
            congr 1
            · refine List.map_congr_left ?_
              intro c hc
              exact ih c (hroot c (by simp [Body.ids, hc]))
            · refine List.map_congr_left ?_
              intro c hc
              exact ih c (hroot c (by simp [Body.ids, hc]))
      · exfalso
        exact h2 (indexOf_declared hi h1)
      · rfl
    | some i =>
      have hl := hlive i hi
      obtain ⟨j, hj, hlj⟩ := hp.keeps i hl
      have hjj := hp.resolved i j hj
      have hren : rename (m.table M) kept id = (m.table M).idOf (rank (keeps kept) j) := by
        simp [rename, hi, hj]
      have hid := Table.indexOf_some hi
      have hilt : i < m.specs.length := by
        rw [← hp.length]
        exact (List.getElem?_eq_some_iff.mp hj).1
      have hjlt : j < m.specs.length := by
        rw [← hp.length]
        exact (List.getElem?_eq_some_iff.mp hjj).1
      obtain ⟨a, ha⟩ : ∃ a, m.specs[i]? = some a := ⟨_, List.getElem?_eq_getElem hilt⟩
      obtain ⟨b, hb⟩ : ∃ b, m.specs[j]? = some b := ⟨_, List.getElem?_eq_getElem hjlt⟩
      have hag := hp.agree i j a b hl hj ha hb
      have hrank : (retain (keeps kept) m.specs 0)[rank (keeps kept) j]? = some b := by
        have := retain_get m.specs (keeps kept) 0 j hjlt (by simpa [keeps] using hjj)
        simp only [Nat.zero_add] at this
        rw [this, hb]
      rw [hren, hid, unfold_spec rfl ha, unfold_spec (s := ⟨b.original, b.body.ren (rename (m.table M) kept)⟩)
        (by simp [Mod.table]) (by rw [List.getElem?_map, hrank]; rfl)]
      simp only [Body.ren, List.map_map]
      have hmaps : ∀ (l l' : List Id), List.Forall₂ (Rel (m.table M) kept) l l' →
          (∀ c ∈ l, ∀ k, (m.table M).indexOf c = some k → live k) →
          List.map (unfold M ⟨m.functions.map (Option.map (Body.ren (rename (m.table M) kept))),
            (retain (keeps kept) m.specs 0).map fun s =>
              ⟨s.original, s.body.ren (rename (m.table M) kept)⟩⟩ n ∘ rename (m.table M) kept) l' =
          List.map (unfold M m n) l := by
        intro l l' h2
        induction h2 with
        | nil => intro _; rfl
        | cons hr _ ih2 =>
          intro hc
          simp only [List.map_cons, Function.comp]
          rw [← hr.rename, ih _ (hc _ (by simp))]
          congr 1
          exact ih2 (fun c hm => hc c (by simp [hm]))
      rw [hag.original, hag.shape]
      congr 1
      · exact hmaps _ _ hag.operands (fun c hc => hp.step i a hl ha c (by simp [Body.ids, hc]))
      · exact hmaps _ _ hag.closures (fun c hc => hp.step i a hl ha c (by simp [Body.ids, hc]))

end Ferlium.SpecTable
