import Verif.Model.Uninhabited
import Mathlib.Tactic

/-!
Property C39: a `match` may only omit cases that cannot occur.
-/

namespace Ferlium.Uninhabited

/-! ### Specification: values and their types -/

/-- Run-time values. -/
inductive Val where
  | atom (n : Nat)
  | tuple (fields : List Val)
  | record (fields : List (String × Val))
  | variant (tag : String) (payload : Val)

/-- The finite values of a type.  Any value may be a value of an opaque type (a type variable can stand for
any type). -/
inductive HasTy (kind : Nat → Kind) : Val → Nat → Prop
  | opaque {t : Nat} {v : Val} : kind t = .opaque → HasTy kind v t
  | tuple {t : Nat} {fs : List Nat} {vs : List Val} : kind t = .tuple fs → vs.length = fs.length →
      (∀ (i : Nat) (v : Val) (f : Nat), vs[i]? = some v → fs[i]? = some f → HasTy kind v f) →
      HasTy kind (.tuple vs) t
  | record {t : Nat} {fs : List (String × Nat)} {vs : List (String × Val)} : kind t = .record fs →
      vs.map Prod.fst = fs.map Prod.fst →
      (∀ (i : Nat) (v : Val) (f : Nat), (vs.map Prod.snd)[i]? = some v → (fs.map Prod.snd)[i]? = some f →
        HasTy kind v f) →
      HasTy kind (.record vs) t
  | variant {t : Nat} {vs : List (String × Nat)} {tag : String} {p : Nat} {v : Val} : kind t = .variant vs →
      (tag, p) ∈ vs → HasTy kind v p → HasTy kind (.variant tag v) t
  | named {t shape : Nat} {v : Val} : kind t = .named shape → HasTy kind v shape → HasTy kind v t

/-- A type with no values for a finite reason: it is `never`, a product with such a field, a sum of such
payloads, or a name for such a type. -/
inductive Empty (kind : Nat → Kind) : Nat → Prop
  | never {t : Nat} : kind t = .never → Empty kind t
  | tuple {t f : Nat} {fs : List Nat} : kind t = .tuple fs → f ∈ fs → Empty kind f → Empty kind t
  | record {t f : Nat} {n : String} {fs : List (String × Nat)} : kind t = .record fs → (n, f) ∈ fs →
      Empty kind f → Empty kind t
  | variant {t : Nat} {vs : List (String × Nat)} : kind t = .variant vs →
      (∀ (tag : String) (p : Nat), (tag, p) ∈ vs → Empty kind p) → Empty kind t
  | named {t shape : Nat} : kind t = .named shape → Empty kind shape → Empty kind t

/-- The types a type directly consists of. -/
def children : Kind → List Nat
  | .never | .opaque => []
  | .tuple fs => fs
  | .record fs => fs.map Prod.snd
  | .variant vs => vs.map Prod.snd
  | .named shape => [shape]

/-- `R` contains every type `ty` is made of (a type of the store is made of finitely many types: the
compiler accepts regular recursive types only). -/
def Closed (kind : Nat → Kind) (R : List Nat) : Prop := ∀ t ∈ R, ∀ c ∈ children (kind t), c ∈ R

/-! ### Lemmas -/

theorem anyM_true {f : Nat → Option Bool} : ∀ {l : List Nat}, anyM f l = some true → ∃ t ∈ l, f t = some true := by
  intro l
  induction l with
  | nil => intro h; simp [anyM] at h
  | cons a l ih =>
    intro h
    simp only [anyM, Option.bind_eq_bind] at h
    cases hf : f a with
    | none => rw [hf] at h; simp at h
    | some b =>
      rw [hf] at h
      cases b with
      | true => exact ⟨a, by simp, hf⟩
      | false =>
        obtain ⟨t, ht, h2⟩ := ih (by simpa using h)
        exact ⟨t, by simp [ht], h2⟩

theorem allM_true {f : Nat → Option Bool} : ∀ {l : List Nat}, allM f l = some true → ∀ t ∈ l, f t = some true := by
  intro l
  induction l with
  | nil => intro _ t ht; simp at ht
  | cons a l ih =>
    intro h
    simp only [allM, Option.bind_eq_bind] at h
    cases hf : f a with
    | none => rw [hf] at h; simp at h
    | some b =>
      rw [hf] at h
      cases b with
      | false => simp at h
      | true =>
        intro t ht
        rcases List.mem_cons.mp ht with rfl | ht
        · exact hf
        · exact ih (by simpa using h) t ht

theorem anyM_total {f : Nat → Option Bool} : ∀ {l : List Nat}, (∀ t ∈ l, ∃ b, f t = some b) →
    ∃ b, anyM f l = some b ∧ ((∃ t ∈ l, f t = some true) → b = true) := by
  intro l
  induction l with
  | nil => intro _; exact ⟨false, rfl, by simp⟩
  | cons a l ih =>
    intro h
    obtain ⟨b, hb⟩ := h a (by simp)
    obtain ⟨c, hc, h2⟩ := ih (fun t ht => h t (by simp [ht]))
    simp only [anyM, hb, Option.bind_eq_bind, Option.bind_some]
    cases b with
    | true => exact ⟨true, rfl, fun _ => rfl⟩
    | false =>
      refine ⟨c, by simpa using hc, ?_⟩
      rintro ⟨t, ht, h3⟩
      rcases List.mem_cons.mp ht with rfl | ht
      · rw [hb] at h3; cases h3
      · exact h2 ⟨t, ht, h3⟩

theorem allM_total {f : Nat → Option Bool} : ∀ {l : List Nat}, (∀ t ∈ l, ∃ b, f t = some b) →
    ∃ b, allM f l = some b ∧ ((∀ t ∈ l, f t = some true) → b = true) := by
  intro l
  induction l with
  | nil => intro _; exact ⟨true, rfl, by simp⟩
  | cons a l ih =>
    intro h
    obtain ⟨b, hb⟩ := h a (by simp)
    obtain ⟨c, hc, h2⟩ := ih (fun t ht => h t (by simp [ht]))
    simp only [allM, hb, Option.bind_eq_bind, Option.bind_some]
    cases b with
    | false =>
      refine ⟨false, rfl, fun h3 => ?_⟩
      have := h3 a (by simp)
      rw [hb] at this
      cases this
    | true => exact ⟨c, by simpa using hc, fun h3 => h2 (fun t ht => h3 t (by simp [ht]))⟩

theorem go_sound {kind : Nat → Kind} {v : Val} {t : Nat} (h : HasTy kind v t) :
    ∀ seen, go kind t seen ≠ some true := by
  induction h with
  | «opaque» hk =>
    intro seen hg
    unfold go at hg
    simp only [hk] at hg
    split_ifs at hg <;> simp at hg
  | tuple hk hlen _ ih =>
    intro seen hg
    unfold go at hg
    simp only [hk] at hg
    split_ifs at hg
    · simp at hg
    · obtain ⟨f, hf, h2⟩ := anyM_true hg
      obtain ⟨i, hi, hfi⟩ := List.mem_iff_getElem.mp hf
      exact ih i _ f (List.getElem?_eq_getElem (by rw [hlen]; exact hi))
        (by rw [List.getElem?_eq_getElem hi, hfi]) _ h2
  | record hk hlen _ ih =>
    intro seen hg
    unfold go at hg
    simp only [hk] at hg
    split_ifs at hg
    · simp at hg
    · obtain ⟨f, hf, h2⟩ := anyM_true hg
      obtain ⟨i, hi, hfi⟩ := List.mem_iff_getElem.mp hf
      have hl := congrArg List.length hlen
      simp only [List.length_map] at hl hi
      exact ih i _ f (List.getElem?_eq_getElem (by simp only [List.length_map]; omega))
        (by rw [List.getElem?_eq_getElem (by simpa using hi), hfi]) _ h2
  | variant hk hm _ ih =>
    intro seen hg
    unfold go at hg
    simp only [hk] at hg
    split_ifs at hg
    · simp at hg
    · exact ih _ (allM_true hg _ (List.mem_map.mpr ⟨_, hm, rfl⟩))
  | named hk _ ih =>
    intro seen hg
    unfold go at hg
    simp only [hk] at hg
    split_ifs at hg
    · simp at hg
    · exact ih _ hg

theorem go_total {kind : Nat → Kind} {R : List Nat} (hR : Closed kind R) :
    ∀ (k : Nat) (t : Nat) (seen : List Nat), t ∈ R → (R.toFinset \ seen.toFinset).card ≤ k →
      ∃ b, go kind t seen = some b := by
  intro k
  induction k with
  | zero =>
    intro t seen ht hk
    unfold go
    have : t ∈ seen := by
      by_contra hc
      have hm : t ∈ R.toFinset \ seen.toFinset := by simp [ht, hc]
      have := Finset.card_pos.mpr ⟨t, hm⟩
      omega
    rw [if_pos this]
    exact ⟨_, rfl⟩
  | succ k ih =>
    intro t seen ht hk
    unfold go
    split_ifs with hs
    · exact ⟨_, rfl⟩
    · have hlt : (R.toFinset \ (t :: seen).toFinset).card ≤ k := by
        have hss : R.toFinset \ (t :: seen).toFinset ⊂ R.toFinset \ seen.toFinset := by
          rw [Finset.ssubset_iff_of_subset]
          · exact ⟨t, by simp [ht, hs], by simp⟩
          · intro x hx
            simp only [Finset.mem_sdiff, List.mem_toFinset, List.mem_cons, not_or] at hx ⊢
            exact ⟨hx.1, hx.2.2⟩
        have := Finset.card_lt_card hss
        omega
      have hch : ∀ c ∈ children (kind t), ∃ b, go kind c (t :: seen) = some b :=
        fun c hc => ih c (t :: seen) (hR t ht c hc) hlt
      cases hkd : kind t with
      | never => exact ⟨_, rfl⟩
      | «opaque» => exact ⟨_, rfl⟩
      | tuple fs =>
        rw [hkd] at hch
        obtain ⟨b, hb, _⟩ := anyM_total hch
        exact ⟨b, hb⟩
      | record fs =>
        rw [hkd] at hch
        obtain ⟨b, hb, _⟩ := anyM_total hch
        exact ⟨b, hb⟩
      | variant vs =>
        rw [hkd] at hch
        obtain ⟨b, hb, _⟩ := allM_total hch
        exact ⟨b, hb⟩
      | named shape =>
        rw [hkd] at hch
        exact hch shape (by simp [children])

theorem go_empty {kind : Nat → Kind} : ∀ (k : Nat) (R : List Nat), Closed kind R →
    ∀ (t : Nat) (seen : List Nat), t ∈ R → (R.toFinset \ seen.toFinset).card ≤ k →
      go kind t seen = some true → Empty kind t := by
  intro k
  induction k with
  | zero =>
    intro R hR t seen ht hk hg
    unfold go at hg
    have : t ∈ seen := by
      by_contra hc
      have hm : t ∈ R.toFinset \ seen.toFinset := by simp [ht, hc]
      have := Finset.card_pos.mpr ⟨t, hm⟩
      omega
    rw [if_pos this] at hg
    simp at hg
  | succ k ih =>
    intro R hR t seen ht hk hg
    unfold go at hg
    split_ifs at hg with hs
    · simp at hg
    · have hlt : (R.toFinset \ (t :: seen).toFinset).card ≤ k := by
        have hss : R.toFinset \ (t :: seen).toFinset ⊂ R.toFinset \ seen.toFinset := by
          rw [Finset.ssubset_iff_of_subset]
          · exact ⟨t, by simp [ht, hs], by simp⟩
          · intro x hx
            simp only [Finset.mem_sdiff, List.mem_toFinset, List.mem_cons, not_or] at hx ⊢
            exact ⟨hx.1, hx.2.2⟩
        have := Finset.card_lt_card hss
        omega
      have hch : ∀ c ∈ children (kind t), go kind c (t :: seen) = some true → Empty kind c :=
        fun c hc => ih R hR c (t :: seen) (hR t ht c hc) hlt
      cases hkd : kind t with
      | never => exact .never hkd
      | «opaque» => rw [hkd] at hg; simp at hg
      | tuple fs =>
        rw [hkd] at hg hch
        obtain ⟨f, hf, h2⟩ := anyM_true hg
        exact .tuple hkd hf (hch f hf h2)
      | record fs =>
        rw [hkd] at hg hch
        obtain ⟨f, hf, h2⟩ := anyM_true hg
        obtain ⟨⟨n, f'⟩, hm, rfl⟩ := List.mem_map.mp hf
        exact .record hkd hm (hch _ hf h2)
      | variant vs =>
        rw [hkd] at hg hch
        refine .variant hkd ?_
        intro tag p hm
        have hmem : p ∈ vs.map Prod.snd := List.mem_map.mpr ⟨_, hm, rfl⟩
        exact hch p hmem (allM_true hg p hmem)
      | named shape =>
        rw [hkd] at hg hch
        exact .named hkd (hch shape (by simp [children]) hg)

/-- A derivation of emptiness of bounded height. -/
def EmptyH (kind : Nat → Kind) : Nat → Nat → Prop
  | 0, _ => False
  | n + 1, t =>
    match kind t with
    | .never => True
    | .opaque => False
    | .tuple fs => ∃ f ∈ fs, EmptyH kind n f
    | .record fs => ∃ f ∈ fs.map Prod.snd, EmptyH kind n f
    | .variant vs => ∀ p ∈ vs.map Prod.snd, EmptyH kind n p
    | .named shape => EmptyH kind n shape

theorem EmptyH.succ {kind : Nat → Kind} : ∀ {n t : Nat}, EmptyH kind n t → EmptyH kind (n + 1) t := by
  intro n
  induction n with
  | zero => intro t h; exact h.elim
  | succ n ih =>
    intro t h
    unfold EmptyH at h ⊢
    cases hk : kind t with
    | never => trivial
    | «opaque» => rw [hk] at h; exact h
    | tuple fs => rw [hk] at h; obtain ⟨f, hf, h⟩ := h; exact ⟨f, hf, ih h⟩
    | record fs => rw [hk] at h; obtain ⟨f, hf, h⟩ := h; exact ⟨f, hf, ih h⟩
    | variant vs => rw [hk] at h; exact fun p hp => ih (h p hp)
    | named shape => rw [hk] at h; exact ih h

theorem EmptyH.mono {kind : Nat → Kind} {m n t : Nat} (hmn : m ≤ n) (h : EmptyH kind m t) : EmptyH kind n t := by
  induction hmn with
  | refl => exact h
  | step _ ih => exact ih.succ

theorem bounded {kind : Nat → Kind} : ∀ (l : List Nat), (∀ p ∈ l, ∃ n, EmptyH kind n p) →
    ∃ n, ∀ p ∈ l, EmptyH kind n p := by
  intro l
  induction l with
  | nil => intro _; exact ⟨0, by simp⟩
  | cons a l ih =>
    intro h
    obtain ⟨n, hn⟩ := h a (by simp)
    obtain ⟨m, hm⟩ := ih (fun p hp => h p (by simp [hp]))
    refine ⟨max n m, ?_⟩
    intro p hp
    rcases List.mem_cons.mp hp with rfl | hp
    · exact hn.mono (le_max_left _ _)
    · exact (hm p hp).mono (le_max_right _ _)

theorem Empty.height {kind : Nat → Kind} {t : Nat} (h : Empty kind t) : ∃ n, EmptyH kind n t := by
  induction h with
  | never hk => exact ⟨1, by simp [EmptyH, hk]⟩
  | tuple hk hf _ ih =>
    obtain ⟨n, hn⟩ := ih
    exact ⟨n + 1, by simp only [EmptyH, hk]; exact ⟨_, hf, hn⟩⟩
  | record hk hf _ ih =>
    obtain ⟨n, hn⟩ := ih
    exact ⟨n + 1, by simp only [EmptyH, hk]; exact ⟨_, List.mem_map.mpr ⟨_, hf, rfl⟩, hn⟩⟩
  | variant hk _ ih =>
    rename_i t vs _
    obtain ⟨n, hn⟩ := bounded (kind := kind) (vs.map Prod.snd) (by
      intro p hp
      obtain ⟨⟨tag, p'⟩, hm, rfl⟩ := List.mem_map.mp hp
      exact ih tag p' hm)
    exact ⟨n + 1, by simp only [EmptyH, hk]; exact hn⟩
  | named hk _ ih =>
    obtain ⟨n, hn⟩ := ih
    exact ⟨n + 1, by simp only [EmptyH, hk]; exact hn⟩

theorem go_complete {kind : Nat → Kind} {R : List Nat} (hR : Closed kind R) : ∀ (n t : Nat) (seen : List Nat),
    t ∈ R → EmptyH kind n t → (∀ s ∈ seen, ¬ EmptyH kind n s) → go kind t seen = some true := by
  intro n
  induction n with
  | zero => intro t seen _ h; exact h.elim
  | succ n ih =>
    intro t seen ht h hseen
    by_cases hn : EmptyH kind n t
    · exact ih t seen ht hn (fun s hs hc => hseen s hs hc.succ)
    · have hts : t ∉ seen := fun hc => hseen t hc h
      have hseen' : ∀ s ∈ t :: seen, ¬ EmptyH kind n s := by
        intro s hs
        rcases List.mem_cons.mp hs with rfl | hs
        · exact hn
        · exact fun hc => hseen s hs hc.succ
      have hch : ∀ c ∈ children (kind t), EmptyH kind n c → go kind c (t :: seen) = some true :=
        fun c hc he => ih c (t :: seen) (hR t ht c hc) he hseen'
      have htot : ∀ c ∈ children (kind t), ∃ b, go kind c (t :: seen) = some b :=
        fun c hc => go_total hR _ c (t :: seen) (hR t ht c hc) le_rfl
      unfold go
      rw [if_neg hts]
      unfold EmptyH at h
      cases hk : kind t with
      | never => rfl
      | «opaque» => rw [hk] at h; exact h.elim
      | tuple fs =>
        rw [hk] at h hch htot
        obtain ⟨f, hf, he⟩ := h
        obtain ⟨b, hb, h2⟩ := anyM_total htot
        rw [h2 ⟨f, hf, hch f hf he⟩] at hb
        exact hb
      | record fs =>
        rw [hk] at h hch htot
        obtain ⟨f, hf, he⟩ := h
        obtain ⟨b, hb, h2⟩ := anyM_total htot
        rw [h2 ⟨f, hf, hch f hf he⟩] at hb
        exact hb
      | variant vs =>
        rw [hk] at h hch htot
        obtain ⟨b, hb, h2⟩ := allM_total htot
        rw [h2 (fun p hp => hch p hp (h p hp))] at hb
        exact hb
      | named shape =>
        rw [hk] at h hch
        exact hch shape (by simp [children]) h

/-! ### Properties -/

/-- **C39** A type reported as uninhabited has no values: whatever the type definitions, finite or not. -/
theorem C39_no_value (kind : Nat → Kind) (ty : Nat) (h : isDefinitelyUninhabited kind ty = some true) :
    ¬ ∃ v, HasTy kind v ty :=
  fun ⟨_, hv⟩ => go_sound hv [] h

/-- **C39** On types made of finitely many types the check ends, and it reports exactly the types that are
empty for a finite reason. -/
theorem C39_check_ends_and_is_exact (kind : Nat → Kind) (R : List Nat) (hR : Closed kind R) (ty : Nat)
    (ht : ty ∈ R) :
    ∃ b, isDefinitelyUninhabited kind ty = some b ∧ (b = true ↔ Empty kind ty) := by
  obtain ⟨b, hb⟩ := go_total hR _ ty [] ht le_rfl
  refine ⟨b, hb, ?_, ?_⟩
  · intro h
    subst h
    exact go_empty _ R hR ty [] ht le_rfl hb
  · intro h
    obtain ⟨n, hn⟩ := h.height
    have := go_complete hR n ty [] ht hn (by simp)
    rw [this] at hb
    cases hb
    rfl

theorem omissionLoop_covers {kind : Nat → Kind} {covered : List (String × Nat)} :
    ∀ {vs l : List (String × Nat)}, omissionLoop kind covered vs = some (some l) →
      l.map Prod.fst = vs.map Prod.fst ∧
      ∀ tag p, (tag, p) ∈ vs → (covered.lookup tag).isSome = true ∨
        isDefinitelyUninhabited kind p = some true := by
  intro vs
  induction vs with
  | nil =>
    intro l h
    simp only [omissionLoop, Option.some.injEq] at h
    subst h
    simp
  | cons a vs ih =>
    obtain ⟨tag, p⟩ := a
    intro l h
    have hrec : ∀ x : Nat, (omissionLoop kind covered vs).map
        (fun r => r.map fun l => (tag, x) :: l) = some (some l) →
        ∃ l', omissionLoop kind covered vs = some (some l') ∧ l = (tag, x) :: l' := by
      intro x hx
      cases ho : omissionLoop kind covered vs with
      | none => rw [ho] at hx; simp at hx
      | some r =>
        rw [ho] at hx
        cases r with
        | none => simp at hx
        | some l' => simp at hx; exact ⟨l', rfl, hx.symm⟩
    simp only [omissionLoop] at h
    cases hc : covered.lookup tag with
    | some x =>
      rw [hc] at h
      obtain ⟨l', h1, rfl⟩ := hrec x h
      obtain ⟨h2, h3⟩ := ih h1
      refine ⟨by simp [h2], ?_⟩
      intro tag' p' hm
      rcases List.mem_cons.mp hm with he | hm
      · cases he; exact Or.inl (by rw [hc]; rfl)
      · exact h3 _ _ hm
    | none =>
      rw [hc] at h
      cases hu : isDefinitelyUninhabited kind p with
      | none => rw [hu] at h; simp at h
      | some b =>
        rw [hu] at h
        cases b with
        | false => simp at h
        | true =>
          simp only [Option.bind_eq_bind, Option.bind_some, if_true] at h
          obtain ⟨l', h1, rfl⟩ := hrec p h
          obtain ⟨h2, h3⟩ := ih h1
          refine ⟨by simp [h2], ?_⟩
          intro tag' p' hm
          rcases List.mem_cons.mp hm with he | hm
          · cases he; exact Or.inr hu
          · exact h3 _ _ hm

/-- **C39** If a `match` on a value of an enum type is accepted with some cases omitted, then every value
of that type is of a case that is not omitted; the variant type used for the match has all the cases. -/
theorem C39_omitted_cases_cannot_occur (kind : Nat → Kind) (condition : Nat)
    (covered l : List (String × Nat)) (h : omissions kind condition covered = some (some l)) :
    (∃ shape vs, kind condition = .named shape ∧ kind shape = .variant vs ∧
      l.map Prod.fst = vs.map Prod.fst) ∧
    ∀ v, HasTy kind v condition → ∃ tag payload, v = .variant tag payload ∧
      (covered.lookup tag).isSome = true := by
  unfold omissions at h
  cases hk : kind condition with
  | named shape =>
    rw [hk] at h
    simp only [] at h
    cases hs : kind shape with
    | variant vs =>
      rw [hs] at h
      obtain ⟨h1, h2⟩ := omissionLoop_covers h
      refine ⟨⟨shape, vs, rfl, hs, h1⟩, ?_⟩
      intro v hv
      cases hv with
      | named hk' hv =>
        rw [hk] at hk'
        cases hk'
        cases hv with
        | variant hs' hm hp =>
          rw [hs] at hs'
          cases hs'
          rcases h2 _ _ hm with h3 | h3
          · exact ⟨_, _, rfl, h3⟩
          · exact absurd ⟨_, hp⟩ (C39_no_value kind _ h3)
        | «opaque» hs' => rw [hs] at hs'; cases hs'
        | tuple hs' => rw [hs] at hs'; cases hs'
        | record hs' => rw [hs] at hs'; cases hs'
        | named hs' => rw [hs] at hs'; cases hs'
      | «opaque» hk' => rw [hk] at hk'; cases hk'
      | tuple hk' => rw [hk] at hk'; cases hk'
      | record hk' => rw [hk] at hk'; cases hk'
      | variant hk' => rw [hk] at hk'; cases hk'
    | never => rw [hs] at h; simp at h
    | «opaque» => rw [hs] at h; simp at h
    | tuple _ => rw [hs] at h; simp at h
    | record _ => rw [hs] at h; simp at h
    | named _ => rw [hs] at h; simp at h
  | never => rw [hk] at h; simp at h
  | «opaque» => rw [hk] at h; simp at h
  | tuple _ => rw [hk] at h; simp at h
  | record _ => rw [hk] at h; simp at h
  | variant _ => rw [hk] at h; simp at h

/-- **C39** Conversely, an enum all of whose uncovered cases are empty for a finite reason is accepted. -/
theorem C39_impossible_cases_may_be_omitted (kind : Nat → Kind) (R : List Nat) (hR : Closed kind R)
    (condition shape : Nat) (vs covered : List (String × Nat)) (hc : condition ∈ R)
    (hk : kind condition = .named shape) (hs : kind shape = .variant vs)
    (hall : ∀ tag p, (tag, p) ∈ vs → (covered.lookup tag).isSome = true ∨ Empty kind p) :
    ∃ l, omissions kind condition covered = some (some l) ∧
      l.map Prod.fst = vs.map Prod.fst ∧
      ∀ tag p, (tag, p) ∈ l → ∀ c, covered.lookup tag = some c → p = c := by
  have hshape : shape ∈ R := hR condition hc shape (by simp [hk, children])
  have hvs : ∀ tag p, (tag, p) ∈ vs → p ∈ R := fun tag p hm =>
    hR shape hshape p (by simp only [hs, children]; exact List.mem_map.mpr ⟨_, hm, rfl⟩)
  have main : ∀ vs : List (String × Nat), (∀ tag p, (tag, p) ∈ vs → p ∈ R) →
      (∀ tag p, (tag, p) ∈ vs → (covered.lookup tag).isSome = true ∨ Empty kind p) →
      ∃ l, omissionLoop kind covered vs = some (some l) ∧
        ∀ tag p, (tag, p) ∈ l → ∀ c, covered.lookup tag = some c → p = c := by
    intro vs
    induction vs with
    | nil => intro _ _; exact ⟨[], rfl, by simp⟩
    | cons a vs ih =>
      obtain ⟨tag, p⟩ := a
      intro hin hok
      obtain ⟨l, hl, hcov⟩ := ih (fun t q hm => hin t q (by simp [hm])) (fun t q hm => hok t q (by simp [hm]))
      simp only [omissionLoop, hl]
      cases hcv : covered.lookup tag with
      | some x =>
        refine ⟨(tag, x) :: l, rfl, ?_⟩
        intro t q hm c hct
        rcases List.mem_cons.mp hm with he | hm
        · cases he; rw [hcv] at hct; cases hct; rfl
        · exact hcov t q hm c hct
      | none =>
        have he : Empty kind p := by
          rcases hok tag p (by simp) with h | h
          · rw [hcv] at h; simp at h
          · exact h
        obtain ⟨b, hb, hiff⟩ := C39_check_ends_and_is_exact kind R hR p (hin tag p (by simp))
        rw [hiff.mpr he] at hb
        simp only [hb]
        refine ⟨(tag, p) :: l, rfl, ?_⟩
        intro t q hm c hct
        rcases List.mem_cons.mp hm with he | hm
        · cases he; rw [hcv] at hct; cases hct
        · exact hcov t q hm c hct
  obtain ⟨l, hl, hcov⟩ := main vs hvs hall
  refine ⟨l, ?_, (omissionLoop_covers hl).1, hcov⟩
  unfold omissions
  simp only [hk, hs]
  exact hl

/-- `enum E { Ok(int), Bad(never), More((int, E, never)) }`: 0 is `E`, 1 its shape, 2 `int`, 3 `never`,
4 the tuple. -/
def exampleKind : Nat → Kind
  | 0 => .named 1
  | 1 => .variant [("Ok", 2), ("Bad", 3), ("More", 4)]
  | 2 => .opaque
  | 3 => .never
  | 4 => .tuple [2, 0, 3]
  | _ => .opaque

example : Closed exampleKind [0, 1, 2, 3, 4] ∧ Empty exampleKind 4 ∧ ¬ Empty exampleKind 2 := by
  refine ⟨by unfold Closed; decide, .tuple (f := 3) (fs := [2, 0, 3]) rfl (by simp) (.never rfl), ?_⟩
  intro h
  cases h with
  | never h => simp [exampleKind] at h
  | tuple h => simp [exampleKind] at h
  | record h => simp [exampleKind] at h
  | variant h => simp [exampleKind] at h
  | named h => simp [exampleKind] at h

example : HasTy exampleKind (.variant "Ok" (.atom 3)) 0 :=
  .named (shape := 1) rfl (.variant (vs := [("Ok", 2), ("Bad", 3), ("More", 4)]) (p := 2) rfl (by simp) (.opaque rfl))

end Ferlium.Uninhabited
