import Verif.Model.Dominance
import Verif.Proofs.GraphScc

/-! Immediate dominators: the tree being built, and what one pass and the whole loop do to it. -/
namespace Ferlium.Dominance

open Ferlium.Graph

/-- A walk from the entry, most recent node first. -/
inductive Walk (g : Gr) (entry : Nat) : Nat → List Nat → Prop
  | start : Walk g entry entry [entry]
  | step {p n : Nat} {S : List Nat} : Walk g entry p S → Edge g p n → Walk g entry n (n :: S)

/-- Every walk from the entry to `n` goes through `a`. -/
def DomW (g : Gr) (entry n a : Nat) : Prop := ∀ S, Walk g entry n S → a ∈ S

theorem walk_reach {g : Gr} {entry n : Nat} {S : List Nat} (h : Walk g entry n S) : Reach g entry n := by
  induction h with
  | start => exact reach_refl _ _
  | step _ he ih => exact reach_trans ih (reach_edge he)

theorem reach_walk {g : Gr} {entry n : Nat} (h : Reach g entry n) : ∃ S, Walk g entry n S := by
  induction h with
  | refl => exact ⟨_, .start⟩
  | tail _ he ih => obtain ⟨S, hS⟩ := ih; exact ⟨_, hS.step he⟩

theorem dom_pred {g : Gr} {entry n a p : Nat} (hn : a ≠ n) (h : DomW g entry n a) (he : Edge g p n) : DomW g entry p a := by
  intro S hS
  have := h _ (hS.step he)
  rcases List.mem_cons.1 this with rfl | h1
  · exact absurd rfl hn
  · exact h1

theorem dom_entry {g : Gr} {entry a : Nat} (h : DomW g entry entry a) : a = entry := by
  simpa using h _ .start

theorem dom_refl (g : Gr) (entry n : Nat) : DomW g entry n n := by
  intro S hS; cases hS <;> simp

/-- A numbering of the reachable nodes as a reverse postorder gives it. -/
structure Numbering (g : Gr) (entry : Nat) (idx : Nat → Nat) : Prop where
  zero : idx entry = 0
  inj : ∀ u v, Reach g entry u → Reach g entry v → idx u = idx v → u = v
  fwd : ∀ n, Reach g entry n → n ≠ entry → ∃ p, Reach g entry p ∧ Edge g p n ∧ idx p < idx n

variable {g : Gr} {entry : Nat} {idx : Nat → Nat}

/-- The recorded immediate dominators form a tree rooted at the entry. -/
structure TI (g : Gr) (entry : Nat) (idx : Nat → Nat) (I : Nat → Option Nat) : Prop where
  root : I entry = some entry
  par : ∀ n p, I n = some p → Reach g entry n ∧ (I p).isSome = true ∧ (n ≠ entry → idx p < idx n)

def Par (entry : Nat) (I : Nat → Option Nat) (x y : Nat) : Prop := x ≠ entry ∧ I x = some y

/-- `a` is on the path from `n` to the root. -/
def Anc (entry : Nat) (I : Nat → Option Nat) : Nat → Nat → Prop := Relation.ReflTransGen (Par entry I)

theorem anc_refl (I : Nat → Option Nat) (n : Nat) : Anc entry I n n := Relation.ReflTransGen.refl

theorem anc_head {I : Nat → Option Nat} {n p a : Nat} (hn : n ≠ entry) (hp : I n = some p) (h : Anc entry I p a) :
    Anc entry I n a := Relation.ReflTransGen.head ⟨hn, hp⟩ h

theorem anc_cases {I : Nat → Option Nat} {n a : Nat} (h : Anc entry I n a) :
    a = n ∨ ∃ p, n ≠ entry ∧ I n = some p ∧ Anc entry I p a := by
  rcases Relation.ReflTransGen.cases_head h with h | ⟨p, h1, h2⟩
  · exact Or.inl h.symm
  · exact Or.inr ⟨p, h1.1, h1.2, h2⟩

theorem anc_entry {I : Nat → Option Nat} {a : Nat} (h : Anc entry I entry a) : a = entry := by
  rcases anc_cases h with h | ⟨p, h, -⟩
  · exact h
  · exact absurd rfl h

theorem TI.anc_idx {I : Nat → Option Nat} (hT : TI g entry idx I) {n a : Nat} (h : Anc entry I n a) : idx a ≤ idx n := by
  induction h with
  | refl => exact le_refl _
  | tail _ he ih => have := (hT.par _ _ he.2).2.2 he.1; omega

theorem TI.anc_known {I : Nat → Option Nat} (hT : TI g entry idx I) {n a : Nat} (hn : (I n).isSome = true) (h : Anc entry I n a) :
    (I a).isSome = true := by
  induction h with
  | refl => exact hn
  | tail _ he _ => exact (hT.par _ _ he.2).2.1

theorem TI.reach {I : Nat → Option Nat} (hT : TI g entry idx I) {n : Nat} (hn : (I n).isSome = true) : Reach g entry n := by
  obtain ⟨p, hp⟩ := Option.isSome_iff_exists.1 hn
  exact (hT.par n p hp).1

theorem TI.anc_root {I : Nat → Option Nat} (hT : TI g entry idx I) : ∀ (k n : Nat), idx n = k → (I n).isSome = true →
    Anc entry I n entry := by
  intro k
  induction k using Nat.strong_induction_on with
  | _ k ih =>
    intro n hk hn
    by_cases h : n = entry
    · subst h; exact anc_refl _ _
    · obtain ⟨p, hp⟩ := Option.isSome_iff_exists.1 hn
      have := hT.par n p hp
      exact anc_head h hp (ih (idx p) (by have := this.2.2 h; omega) p rfl this.2.1)

theorem TI.anc_eq {I : Nat → Option Nat} (hT : TI g entry idx I) {n a : Nat} (h1 : Anc entry I n a) (h2 : Anc entry I a n) :
    n = a := by
  rcases anc_cases h1 with h | ⟨p, hn, hp, h⟩
  · exact h.symm
  · have h3 := hT.anc_idx h
    have h4 := hT.anc_idx h2
    have := (hT.par n p hp).2.2 hn
    omega

/-- The chain above a node only depends on the entries of nodes with smaller numbers. -/
theorem TI.anc_agree {I J : Nat → Option Nat} (hT : TI g entry idx I) {i : Nat}
    (hag : ∀ x, Reach g entry x → idx x ≤ i → J x = I x) {n : Nat} (hn : (I n).isSome = true) (hi : idx n ≤ i) (a : Nat) :
    Anc entry I n a ↔ Anc entry J n a := by
  have key : ∀ (k n : Nat), idx n = k → (I n).isSome = true → idx n ≤ i → (Anc entry I n a ↔ Anc entry J n a) := by
    intro k
    induction k using Nat.strong_induction_on with
    | _ k ih =>
      intro n hk hn hi
      obtain ⟨p, hp⟩ := Option.isSome_iff_exists.1 hn
      obtain ⟨h1, h2, h3⟩ := hT.par n p hp
      have hJ : J n = some p := by rw [hag n h1 hi, hp]
      have hrec : n ≠ entry → (Anc entry I p a ↔ Anc entry J p a) := fun hne => by
        have := h3 hne
        exact ih (idx p) (by omega) p rfl h2 (by omega)
      constructor
      · intro h
        rcases anc_cases h with rfl | ⟨q, hne, hq, h⟩
        · exact anc_refl _ _
        · rw [hp] at hq; cases hq; exact anc_head hne hJ ((hrec hne).1 h)
      · intro h
        rcases anc_cases h with rfl | ⟨q, hne, hq, h⟩
        · exact anc_refl _ _
        · rw [hJ] at hq; cases hq; exact anc_head hne hp ((hrec hne).2 h)
  exact key _ n rfl hn hi

/-- No dominator is lost: a strict dominator of a node dominates its recorded immediate dominator. -/
def Keeps (g : Gr) (entry : Nat) (I : Nat → Option Nat) : Prop :=
  ∀ n p, n ≠ entry → I n = some p → ∀ a, a ≠ n → DomW g entry n a → DomW g entry p a

theorem dom_anc {I : Nat → Option Nat} (hT : TI g entry idx I) (hK : Keeps g entry I) : ∀ (k n : Nat), idx n = k →
    (I n).isSome = true → ∀ a, DomW g entry n a → Anc entry I n a := by
  intro k
  induction k using Nat.strong_induction_on with
  | _ k ih =>
    intro n hk hn a ha
    by_cases hne : n = entry
    · subst hne; rw [dom_entry ha]; exact anc_refl _ _
    · by_cases han : a = n
      · subst han; exact anc_refl _ _
      · obtain ⟨p, hp⟩ := Option.isSome_iff_exists.1 hn
        obtain ⟨-, h2, h3⟩ := hT.par n p hp
        exact anc_head hne hp (ih (idx p) (by have := h3 hne; omega) p rfl h2 a (hK n p hne hp a han ha))

theorem dom_between {I : Nat → Option Nat} (hT : TI g entry idx I) (hK : Keeps g entry I) {p x a : Nat}
    (h1 : Anc entry I p x) (h2 : Anc entry I x a) (h3 : DomW g entry p a) : DomW g entry x a := by
  induction h1 using Relation.ReflTransGen.head_induction_on with
  | refl => exact h3
  | head he hr ih =>
    rename_i b q
    refine ih (hK b q he.1 he.2 a ?_ h3)
    rintro rfl
    have e1 := hT.anc_idx (show Anc entry I q x from hr)
    have e2 := hT.anc_idx h2
    have e3 := (hT.par a q he.2).2.2 he.1
    omega

/-- `d` is the lowest common ancestor of the known predecessors of `n`. -/
def Meet (g : Gr) (entry : Nat) (I : Nat → Option Nat) (n d : Nat) : Prop :=
  ∀ a, Anc entry I d a ↔ ∀ p, Edge g p n → (I p).isSome = true → Anc entry I p a

theorem meet_lt {I : Nat → Option Nat} (hT : TI g entry idx I) {n d f : Nat} (hm : Meet g entry I n d)
    (hf : Edge g f n) (hfk : (I f).isSome = true) (hfi : idx f < idx n) : idx d < idx n := by
  have := hT.anc_idx ((hm d).1 (anc_refl _ _) f hf hfk)
  omega

theorem step_ok {I : Nat → Option Nat} (hT : TI g entry idx I) (hK : Keeps g entry I) {n d f : Nat}
    (hn : n ≠ entry) (hR : Reach g entry n) (hd : (I d).isSome = true) (hm : Meet g entry I n d)
    (hf : Edge g f n) (hfk : (I f).isSome = true) (hfi : idx f < idx n) :
    TI g entry idx (Function.update I n (some d)) ∧ Keeps g entry (Function.update I n (some d)) := by
  have hlt := meet_lt hT hm hf hfk hfi
  have hkn : ∀ x, (I x).isSome = true → ((Function.update I n (some d)) x).isSome = true := by
    intro x hx
    by_cases h : x = n
    · subst h; simp
    · rw [Function.update_of_ne h]; exact hx
  constructor
  · refine ⟨by rw [Function.update_of_ne (Ne.symm hn)]; exact hT.root, ?_⟩
    intro x p hx
    by_cases h : x = n
    · subst h
      rw [Function.update_self] at hx; cases hx
      exact ⟨hR, hkn d hd, fun _ => hlt⟩
    · rw [Function.update_of_ne h] at hx
      obtain ⟨h1, h2, h3⟩ := hT.par x p hx
      exact ⟨h1, hkn p h2, h3⟩
  · intro x p hx hp a ha hdom
    by_cases h : x = n
    · subst h
      rw [Function.update_self] at hp; cases hp
      have hanc : ∀ q, Edge g q x → (I q).isSome = true → Anc entry I q a := fun q hq hqk =>
        dom_anc hT hK _ q rfl hqk a (dom_pred ha hdom hq)
      exact dom_between hT hK ((hm d).1 (anc_refl _ _) f hf hfk) ((hm a).2 hanc) (dom_pred ha hdom hf)
    · rw [Function.update_of_ne h] at hp
      exact hK x p hx hp a ha hdom

/-- The state in the middle of a pass, when `n` is processed. -/
def mid (idx : Nat → Nat) (P I : Nat → Option Nat) (n : Nat) : Nat → Option Nat := fun x => if idx x < idx n then I x else P x

/-- What a pass that has processed the nodes numbered below `i` has achieved. -/
structure PassInv (g : Gr) (entry : Nat) (idx : Nat → Nat) (P : Nat → Option Nat) (i : Nat) (I : Nat → Option Nat) : Prop where
  tree : TI g entry idx I
  keeps : Keeps g entry I
  known : ∀ x, Reach g entry x → idx x < i → (I x).isSome = true
  same : ∀ x, ¬ (Reach g entry x ∧ idx x < i) → I x = P x
  meet : ∀ n, Reach g entry n → n ≠ entry → idx n < i → ∃ d, I n = some d ∧ Meet g entry (mid idx P I n) n d

theorem pass_step (hN : Numbering g entry idx) {P I : Nat → Option Nat} {n d : Nat} (h : PassInv g entry idx P (idx n) I)
    (hR : Reach g entry n) (hn : n ≠ entry) (hd : (I d).isSome = true) (hm : Meet g entry I n d) :
    PassInv g entry idx P (idx n + 1) (Function.update I n (some d)) := by
  obtain ⟨f, hfR, hf, hfi⟩ := hN.fwd n hR hn
  obtain ⟨h1, h2⟩ := step_ok h.tree h.keeps hn hR hd hm hf (h.known f hfR hfi) hfi
  refine ⟨h1, h2, ?_, ?_, ?_⟩
  · intro x hx hlt
    by_cases hxn : x = n
    · subst hxn; simp
    · rw [Function.update_of_ne hxn]
      refine h.known x hx ?_
      have : idx x ≠ idx n := fun hc => hxn (hN.inj x n hx hR hc)
      omega
  · intro x hx
    by_cases hxn : x = n
    · subst hxn; exact absurd ⟨hR, by omega⟩ hx
    · rw [Function.update_of_ne hxn]
      refine h.same x (fun hc => hx ⟨hc.1, by omega⟩)
  · intro m hmR hme hlt
    have hmid : mid idx P (Function.update I n (some d)) m = mid idx P I m := by
      funext x
      simp only [mid]
      by_cases hxn : x = n
      · subst hxn
        have : ¬ idx x < idx m := by omega
        simp [this]
      · rw [Function.update_of_ne hxn]
    rw [hmid]
    by_cases hmn : m = n
    · subst hmn
      refine ⟨d, by simp, ?_⟩
      have : mid idx P I m = I := by
        funext x
        simp only [mid]
        split
        · rfl
        · next hc => exact (h.same x (fun hh => hc hh.2)).symm
      rw [this]; exact hm
    · rw [Function.update_of_ne hmn]
      refine h.meet m hmR hme ?_
      have : idx m ≠ idx n := fun hc => hmn (hN.inj m n hmR hR hc)
      omega

/-- A finished pass. -/
structure PassOK (g : Gr) (entry : Nat) (idx : Nat → Nat) (P I : Nat → Option Nat) : Prop where
  tree : TI g entry idx I
  keeps : Keeps g entry I
  known : ∀ x, Reach g entry x → (I x).isSome = true
  same : ∀ x, ¬ Reach g entry x → I x = P x
  meet : ∀ n, Reach g entry n → n ≠ entry → ∃ d, I n = some d ∧ Meet g entry (mid idx P I n) n d

/-! ### Progress: walks with few backward edges -/

/-- A walk with at most `b` edges to a node with a smaller or equal number. -/
inductive BWalk (g : Gr) (entry : Nat) (idx : Nat → Nat) : Nat → Nat → List Nat → Prop
  | start {b : Nat} : BWalk g entry idx entry b [entry]
  | fwd {p n b : Nat} {S : List Nat} : BWalk g entry idx p b S → Edge g p n → idx p < idx n → BWalk g entry idx n b (n :: S)
  | back {p n b : Nat} {S : List Nat} : BWalk g entry idx p b S → Edge g p n → BWalk g entry idx n (b + 1) (n :: S)

theorem BWalk.walk {n b : Nat} {S : List Nat} (h : BWalk g entry idx n b S) : Walk g entry n S := by
  induction h with
  | start => exact .start
  | fwd _ he _ ih => exact ih.step he
  | back _ he ih => exact ih.step he

theorem BWalk.mono {n b c : Nat} {S : List Nat} (h : BWalk g entry idx n b S) (hc : b ≤ c) : BWalk g entry idx n c S := by
  induction h generalizing c with
  | start => exact .start
  | fwd _ he hi ih => exact (ih hc).fwd he hi
  | @back p n b S _ he ih =>
    obtain ⟨c', rfl⟩ : ∃ c', c = c' + 1 := ⟨c - 1, by omega⟩
    exact (ih (c := c') (by omega)).back he

theorem walk_bwalk {n : Nat} {S : List Nat} (h : Walk g entry n S) : ∃ b, BWalk g entry idx n b S := by
  induction h with
  | start => exact ⟨0, .start⟩
  | step _ he ih => obtain ⟨b, hb⟩ := ih; exact ⟨b + 1, hb.back he⟩

theorem BWalk.prefix {n b : Nat} {S : List Nat} (h : BWalk g entry idx n b S) {c : Nat} (hc : c ∈ S) :
    ∃ S', BWalk g entry idx c b S' ∧ S' ⊆ S ∧ S'.length ≤ S.length := by
  induction h with
  | start => simp at hc; subst hc; exact ⟨_, .start, fun _ h => h, le_refl _⟩
  | @fwd p n b S h he hi ih =>
    rcases List.mem_cons.1 hc with rfl | hc
    · exact ⟨_, h.fwd he hi, fun _ h => h, le_refl _⟩
    · obtain ⟨S', h1, h2, h3⟩ := ih hc
      exact ⟨S', h1, fun x hx => List.mem_cons_of_mem _ (h2 hx), by simp; omega⟩
  | @back p n b S h he ih =>
    rcases List.mem_cons.1 hc with rfl | hc
    · exact ⟨_, h.back he, fun _ h => h, le_refl _⟩
    · obtain ⟨S', h1, h2, h3⟩ := ih hc
      exact ⟨S', h1.mono (by omega), fun x hx => List.mem_cons_of_mem _ (h2 hx), by simp; omega⟩

/-- The tree accounts for all walks with at most `b` backward edges. -/
def Covers (g : Gr) (entry : Nat) (idx : Nat → Nat) (b : Nat) (I : Nat → Option Nat) : Prop :=
  ∀ n S, BWalk g entry idx n b S → ∀ a, Anc entry I n a → a ∈ S

theorem mid_anc {P I : Nat → Option Nat} {n p a : Nat} (hOK : PassOK g entry idx P I)
    (hP : TI g entry idx P) (hp : Reach g entry p)
    (h : Anc entry (mid idx P I n) p a) :
    Anc entry P p a ∨ ∃ c, Anc entry P p c ∧ Anc entry I c a := by
  induction h using Relation.ReflTransGen.head_induction_on with
  | refl => exact Or.inl (anc_refl _ _)
  | head he hr ih =>
    rename_i b q
    by_cases hb : idx b < idx n
    · right
      refine ⟨b, anc_refl _ _, ?_⟩
      have hag := hOK.tree.anc_agree (J := mid idx P I n) (i := idx b) (fun x _ hx => by
        simp only [mid]; rw [if_pos (by omega)]) (hOK.known b hp) (le_refl _) a
      exact hag.2 (Relation.ReflTransGen.head he hr)
    · have hq : P b = some q := by have := he.2; simp only [mid, hb, if_false] at this; exact this
      have hqR : Reach g entry q := hP.reach (hP.par b q hq).2.1
      rcases ih hqR with h | ⟨c, h1, h2⟩
      · exact Or.inl (anc_head he.1 hq h)
      · exact Or.inr ⟨c, anc_head he.1 hq h1, h2⟩

theorem covers_succ {P I : Nat → Option Nat} (hN : Numbering g entry idx) (hOK : PassOK g entry idx P I) (b : Nat)
    (hprev : ∀ b', b = b' + 1 → TI g entry idx P ∧ (∀ x, Reach g entry x → (P x).isSome = true) ∧ Covers g entry idx b' P) :
    Covers g entry idx b I := by
  have key : ∀ (len : Nat) (n : Nat) (S : List Nat), S.length = len → ∀ b0, b0 ≤ b → BWalk g entry idx n b0 S →
      ∀ a, Anc entry I n a → a ∈ S := by
    intro len
    induction len using Nat.strong_induction_on with
    | _ len ih =>
      intro n S hlen b0 hb0 hw a ha
      -- the chain above `n` is the one found from the predecessors in the middle of the pass
      have hup : n ≠ entry → a ≠ n → ∀ p, Edge g p n → ((mid idx P I n) p).isSome = true → Anc entry (mid idx P I n) p a := by
        intro hne han p hp hpk
        have hnR : Reach g entry n := walk_reach hw.walk
        obtain ⟨d, hd, hm⟩ := hOK.meet n hnR hne
        rcases anc_cases ha with h | ⟨q, -, hq, h⟩
        · exact absurd h han
        · rw [hd] at hq; cases hq
          obtain ⟨-, hdk, hlt⟩ := hOK.tree.par n d hd
          have hlt := hlt hne
          have hag := hOK.tree.anc_agree (J := mid idx P I n) (i := idx d) (fun x _ hx => by
            simp only [mid]; rw [if_pos (by omega)]) hdk (le_refl _) a
          exact (hm a).1 (hag.1 h) p hp hpk
      by_cases han : a = n
      · subst han; cases hw <;> simp
      cases hw with
      | start => rw [anc_entry ha]; simp
      | @fwd p _ _ S' hw' he hi =>
        have hne : n ≠ entry := by rintro rfl; rw [hN.zero] at hi; omega
        have hpR : Reach g entry p := walk_reach hw'.walk
        have h1 := hup hne han p he (by simp only [mid, hi, if_true]; exact hOK.known p hpR)
        have hag := hOK.tree.anc_agree (J := mid idx P I n) (i := idx p) (fun x _ hx => by
          simp only [mid]; rw [if_pos (by omega)]) (hOK.known p hpR) (le_refl _) a
        have := ih S'.length (by simp at hlen; omega) p S' rfl b0 hb0 hw' a (hag.2 h1)
        simp [this]
      | @back p _ b1 S' hw' he =>
        by_cases hne : n = entry
        · subst hne; rw [anc_entry ha]; simp
        have hpR : Reach g entry p := walk_reach hw'.walk
        obtain ⟨b', rfl⟩ : ∃ b', b = b' + 1 := ⟨b - 1, by omega⟩
        obtain ⟨hP, hPk, hC⟩ := hprev b' rfl
        have h1 := hup hne han p he (by
          simp only [mid]; split
          · exact hOK.known p hpR
          · exact hPk p hpR)
        have hlt : S'.length < len := by simp at hlen; omega
        rcases mid_anc hOK hP hpR h1 with h | ⟨c, h2, h3⟩
        · have := hC p S' (hw'.mono (by omega)) a h; simp [this]
        · have hcS := hC p S' (hw'.mono (by omega)) c h2
          obtain ⟨S'', k1, k2, k3⟩ := hw'.prefix hcS
          have := ih S''.length (by omega) c S'' rfl b1 (by omega) k1 a h3
          exact List.mem_cons_of_mem _ (k2 this)
  exact fun n S hw a ha => key S.length n S rfl b (le_refl _) hw a ha

theorem uniform_bound {α : Type} (Q : α → Nat → Prop) (mono : ∀ x b c, b ≤ c → Q x b → Q x c) :
    ∀ l : List α, (∀ x ∈ l, ∃ b, Q x b) → ∃ K, ∀ x ∈ l, Q x K := by
  intro l
  induction l with
  | nil => intro _; exact ⟨0, by simp⟩
  | cons a l ih =>
    intro h
    obtain ⟨K, hK⟩ := ih (fun x hx => h x (by simp [hx]))
    obtain ⟨b, hb⟩ := h a (by simp)
    refine ⟨max K b, ?_⟩
    intro x hx
    rcases List.mem_cons.1 hx with rfl | hx
    · exact mono _ _ _ (by omega) hb
    · exact mono _ _ _ (by omega) (hK x hx)

/-- Enough backward edges to witness all non-dominances. -/
theorem exists_bound (g : Gr) (entry : Nat) (idx : Nat → Nat) : ∃ K, ∀ n a, n < g.length → a < g.length →
    ¬ DomW g entry n a → ∃ S, BWalk g entry idx n K S ∧ a ∉ S := by
  obtain ⟨K, hK⟩ := uniform_bound
    (fun (x : Nat × Nat) b => ¬ DomW g entry x.1 x.2 → ∃ S, BWalk g entry idx x.1 b S ∧ x.2 ∉ S)
    (fun x b c hbc h hd => by obtain ⟨S, h1, h2⟩ := h hd; exact ⟨S, h1.mono hbc, h2⟩)
    ((List.range g.length).product (List.range g.length)) (by
      intro x _
      by_cases hd : DomW g entry x.1 x.2
      · exact ⟨0, fun h => absurd hd h⟩
      · simp only [DomW, not_forall] at hd
        obtain ⟨S, h1, h2⟩ := hd
        obtain ⟨b, hb⟩ := walk_bwalk (idx := idx) h1
        exact ⟨b, fun _ => ⟨S, hb, h2⟩⟩)
  refine ⟨K, ?_⟩
  intro n a hn ha hd
  exact hK (n, a) (by
    rw [List.product, List.mem_flatMap]
    exact ⟨n, List.mem_range.2 hn, List.mem_map.2 ⟨a, List.mem_range.2 ha, rfl⟩⟩) hd

theorem reach_lt (hg : WF g) (he : entry < g.length) {n : Nat} (h : Reach g entry n) : n < g.length := by
  induction h with
  | refl => exact he
  | tail _ h _ => exact hg _ _ h

/-- Once the walks are covered the tree is the dominator tree. -/
theorem covers_exact {I : Nat → Option Nat} (hg : WF g) (hent : entry < g.length) {K : Nat}
    (hK : ∀ n a, n < g.length → a < g.length → ¬ DomW g entry n a → ∃ S, BWalk g entry idx n K S ∧ a ∉ S)
    (hT : TI g entry idx I) (hKe : Keeps g entry I) (hkn : ∀ x, Reach g entry x → (I x).isSome = true)
    {b : Nat} (hb : K ≤ b) (hC : Covers g entry idx b I) {n : Nat} (hn : Reach g entry n) (a : Nat) :
    Anc entry I n a ↔ DomW g entry n a := by
  constructor
  · intro ha
    by_contra hd
    have haR := hT.reach (hT.anc_known (hkn n hn) ha)
    obtain ⟨S, h1, h2⟩ := hK n a (reach_lt hg hent hn) (reach_lt hg hent haR) hd
    exact h2 (hC n S (h1.mono hb) a ha)
  · exact dom_anc hT hKe _ n rfl (hkn n hn) a

theorem tree_unique {I J : Nat → Option Nat} (hN : Numbering g entry idx) (hI : TI g entry idx I) (hJ : TI g entry idx J)
    (hIk : ∀ x, Reach g entry x → (I x).isSome = true) (hJk : ∀ x, Reach g entry x → (J x).isSome = true)
    (h : ∀ n a, Reach g entry n → (Anc entry I n a ↔ Anc entry J n a)) {n : Nat} (hn : Reach g entry n) : I n = J n := by
  by_cases hne : n = entry
  · subst hne; rw [hI.root, hJ.root]
  · obtain ⟨p, hp⟩ := Option.isSome_iff_exists.1 (hIk n hn)
    obtain ⟨q, hq⟩ := Option.isSome_iff_exists.1 (hJk n hn)
    obtain ⟨-, p2, p3⟩ := hI.par n p hp
    obtain ⟨-, q2, q3⟩ := hJ.par n q hq
    have p3 := p3 hne
    have q3 := q3 hne
    have h1 : Anc entry J n p := (h n p hn).1 (anc_head hne hp (anc_refl _ _))
    have h2 : Anc entry I n q := (h n q hn).2 (anc_head hne hq (anc_refl _ _))
    have h3 : idx p ≤ idx q := by
      rcases anc_cases h1 with rfl | ⟨q', -, hq', h⟩
      · omega
      · rw [hq] at hq'; cases hq'; exact hJ.anc_idx h
    have h4 : idx q ≤ idx p := by
      rcases anc_cases h2 with rfl | ⟨p', -, hp', h⟩
      · omega
      · rw [hp] at hp'; cases hp'; exact hI.anc_idx h
    have : p = q := hN.inj p q (hI.reach p2) (hJ.reach q2) (by omega)
    rw [hp, hq, this]

/-- A pass that changes nothing has reached the dominator tree. -/
theorem fixpoint_exact {I : Nat → Option Nat} (hOK : PassOK g entry idx I I) {n : Nat} (hn : Reach g entry n) (a : Nat) :
    Anc entry I n a ↔ DomW g entry n a := by
  constructor
  · intro ha S hS
    induction hS with
    | start => rw [anc_entry ha]; simp
    | @step p n S hw he ih =>
      by_cases han : a = n
      · subst han; simp
      rcases anc_cases ha with h | ⟨d, hne, hd, h⟩
      · exact absurd h han
      · obtain ⟨d', hd', hm⟩ := hOK.meet n hn hne
        rw [hd] at hd'; cases hd'
        have hmid : mid idx I I n = I := by funext x; simp [mid]
        rw [hmid] at hm
        have hpR := walk_reach hw
        have := ih hpR ((hm a).1 h p he (hOK.known p hpR))
        simp [this]
  · exact dom_anc hOK.tree hOK.keeps _ n rfl (hOK.known n hn) a

end Ferlium.Dominance
