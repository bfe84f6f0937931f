import Verif.Model.Hash
import Verif.Props.Float
import Verif.Props.Int
import Mathlib.Tactic

/-! Hashing: C47 (mixing is a bijection, framing is unambiguous) and C13 for structural values. -/
namespace Ferlium.Hash.Props
open Ferlium.Hash

/-! ### C47: mixing -/

theorem eq_shift_zero {k : Nat} (hk : 0 < k) {d : W} (h : d = d >>> k) : d = 0#64 := by
  have key : ∀ n i, 64 ≤ i + n → d.getLsbD i = false := by
    intro n
    induction n with
    | zero => intro i hi; exact BitVec.getLsbD_of_ge _ _ (by omega)
    | succ n ih =>
      intro i hi
      rw [h, BitVec.getLsbD_ushiftRight]
      exact ih (k + i) (by omega)
  apply BitVec.eq_of_getLsbD_eq
  intro i _
  rw [key 64 i (by omega)]; simp

theorem xorShift_inj {k : Nat} (hk : 0 < k) : Function.Injective (xorShift k) := by
  intro x y h
  unfold xorShift at h
  have h1 : x ^^^ y = (x ^^^ y) >>> k := by
    rw [BitVec.ushiftRight_xor_distrib]
    have : (x ^^^ x >>> k) ^^^ (y ^^^ y >>> k) = 0#64 := by rw [h]; simp
    have e : (x ^^^ x >>> k) ^^^ (y ^^^ y >>> k) = (x ^^^ y) ^^^ (x >>> k ^^^ y >>> k) := by
      ext i hi
      simp only [BitVec.getElem_xor, BitVec.getElem_ushiftRight]
      cases x[i] <;> cases y[i] <;> cases x.getLsbD (k + i) <;> cases y.getLsbD (k + i) <;> rfl
    rw [e] at this
    exact BitVec.xor_eq_zero_iff.mp this
  exact BitVec.xor_eq_zero_iff.mp (eq_shift_zero hk h1)

theorem mul_inj (c c' : W) (h : c * c' = 1#64) : Function.Injective (fun x : W => x * c) := by
  intro x y he
  have he' : x * c = y * c := he
  have : x * (c * c') = y * (c * c') := by rw [← BitVec.mul_assoc, ← BitVec.mul_assoc, he']
  simpa [h] using this

theorem mul1_inj : Function.Injective (fun x : W => x * 0xbf58476d1ce4e5b9#64) :=
  mul_inj _ 0x96de1b173f119089#64 (by decide)
theorem mul2_inj : Function.Injective (fun x : W => x * 0x94d049bb133111eb#64) :=
  mul_inj _ 0x319642b2d24d8ec3#64 (by decide)

theorem rotl_inj (n : Nat) : Function.Injective (fun x : W => x.rotateLeft n) := by
  intro x y h
  have : IntOps.rotr (IntOps.rotl x n) n = IntOps.rotr (IntOps.rotl y n) n := congrArg (fun z => IntOps.rotr z n) h
  rwa [IntOps.Props.rotr_rotl, IntOps.Props.rotr_rotl] at this

theorem avalanche_inj (a b : Nat) (ha : 0 < a) (hb : 0 < b) :
    Function.Injective (fun s : W => xorShift b (xorShift a (s * 0xbf58476d1ce4e5b9#64) * 0x94d049bb133111eb#64)) :=
  fun _ _ h => mul1_inj (xorShift_inj ha (mul2_inj (xorShift_inj hb h)))

/-- **C47 (bijective mixing).** Mixing a fixed word permutes the 2^64 hasher states, mixing into a fixed state is a
bijection of the word, and so is the final mix: no information is lost by one step. -/
theorem C47_mix_bijective :
    (∀ w, Function.Bijective (fun s => mixWord s w)) ∧ (∀ s, Function.Bijective (fun w => mixWord s w)) ∧
    Function.Bijective finalMix := by
  have hfin : Finite W := Finite.of_injective (fun x : W => x.toFin) (fun x y h => BitVec.eq_of_toFin_eq h)
  refine ⟨fun w => ?_, fun s => ?_, ?_⟩ <;> rw [← Finite.injective_iff_bijective]
  · intro x y h
    exact (BitVec.xor_left_inj _).mp (avalanche_inj 32 29 (by decide) (by decide) h)
  · intro x y h
    have h1 : s ^^^ (x + 0x9e3779b97f4a7c15#64).rotateLeft 17 = s ^^^ (y + 0x9e3779b97f4a7c15#64).rotateLeft 17 :=
      avalanche_inj 32 29 (by decide) (by decide) h
    have h2 := rotl_inj 17 ((BitVec.xor_right_inj s).mp h1)
    exact (BitVec.add_left_inj _).mp h2
  · intro x y h
    exact xorShift_inj (k := 30) (by decide) (avalanche_inj 27 31 (by decide) (by decide) h)

/-- **C47 (states reached by equal-length word sequences differ).** From any state, two word sequences that differ in
exactly one word lead to different hashes. -/
theorem C47_one_word_difference (s : W) (p q : List W) (a b : W) (h : a ≠ b) :
    finalMix (writeWords s (p ++ a :: q)) ≠ finalMix (writeWords s (p ++ b :: q)) := by
  intro he
  have h1 := C47_mix_bijective.2.2.1 he
  unfold writeWords at h1
  rw [List.foldl_append, List.foldl_append, List.foldl_cons, List.foldl_cons] at h1
  have key : ∀ (l : List W) (x y : W), l.foldl mixWord x = l.foldl mixWord y → x = y := by
    intro l
    induction l with
    | nil => intro x y h; exact h
    | cons w l ih => intro x y h; exact (C47_mix_bijective.1 w).1 (ih _ _ h)
  exact h ((C47_mix_bijective.2.1 _).1 (key _ _ _ h1))

/-! ### C47: framing -/

theorem ofNat_inj {m n : Nat} (hm : m < 2^64) (hn : n < 2^64) (h : BitVec.ofNat 64 m = BitVec.ofNat 64 n) : m = n := by
  have := congrArg BitVec.toNat h
  simp only [BitVec.toNat_ofNat] at this
  omega

theorem bytes_inj : Function.Injective (fun b : BitVec 8 => b.setWidth 64) := by
  intro x y h
  have := congrArg BitVec.toNat h
  simp only [BitVec.toNat_setWidth] at this
  apply BitVec.eq_of_toNat_eq
  have := x.isLt
  have := y.isLt
  omega

theorem bytesWords_prefix {a b : List (BitVec 8)} {r r' : List W} (ha : a.length < 2^64) (hb : b.length < 2^64)
    (h : bytesWords a ++ r = bytesWords b ++ r') : a = b ∧ r = r' := by
  unfold bytesWords at h
  simp only [List.cons_append, List.cons.injEq] at h
  have hl := ofNat_inj ha hb h.1
  have := List.append_inj h.2 (by simpa using hl)
  exact ⟨(List.map_injective_iff.mpr bytes_inj) this.1, this.2⟩

/-- **C47 (string framing).** Different sequences of strings feed different word sequences to the hasher. -/
theorem C47_string_framing (as bs : List (List (BitVec 8)))
    (ha : ∀ s ∈ as, s.length < 2^64) (hb : ∀ s ∈ bs, s.length < 2^64)
    (h : as.flatMap bytesWords = bs.flatMap bytesWords) : as = bs := by
  induction as generalizing bs with
  | nil =>
    cases bs with
    | nil => rfl
    | cons b bs => simp [bytesWords] at h
  | cons a as ih =>
    cases bs with
    | nil => simp [bytesWords] at h
    | cons b bs =>
      simp only [List.flatMap_cons] at h
      obtain ⟨h1, h2⟩ := bytesWords_prefix (ha a (by simp)) (hb b (by simp)) h
      rw [h1, ih bs (fun s hs => ha s (by simp [hs])) (fun s hs => hb s (by simp [hs])) h2]

theorem words_variant (tag : List (BitVec 8)) (p : Val) : words (.variant tag p) = bytesWords tag ++ words p := by
  cases p <;> simp [words]

theorem prefix_free {env : Nat → Ty} {t : Ty} {v : Val} (hv : HasType env t v) :
    ∀ (w : Val), HasType env t w → ∀ r r', words v ++ r = words w ++ r' → v = w ∧ r = r' := by
  refine HasType.rec
    (motive_1 := fun t v _ => ∀ (w : Val), HasType env t w → ∀ r r', words v ++ r = words w ++ r' → v = w ∧ r = r')
    (motive_2 := fun ts vs _ => ∀ (ws : List Val), HasTypes env ts ws →
      ∀ r r', wordsAll vs ++ r = wordsAll ws ++ r' → vs = ws ∧ r = r')
    (motive_3 := fun t vs _ => ∀ (ws : List Val), AllType env t ws → vs.length = ws.length →
      ∀ r r', wordsAll vs ++ r = wordsAll ws ++ r' → vs = ws ∧ r = r')
    ?_ ?_ ?_ ?_ ?_ ?_ ?_ ?_ ?_ ?_ ?_ ?_ ?_ ?_ hv
  · intro x w hw r r' h; cases hw; simp_all [words]
  · intro b w hw r r' h
    cases hw
    rename_i b'
    simp only [words, List.cons_append, List.nil_append, List.cons.injEq] at h
    refine ⟨?_, h.2⟩
    cases b <;> cases b' <;> simp_all
  · intro b w hw r r' h; cases hw; simp_all [words]
  · intro bs hl w hw r r' h
    cases hw
    rename_i bs' hl'
    obtain ⟨h1, h2⟩ := bytesWords_prefix hl hl' (by simpa [words] using h)
    exact ⟨by rw [h1], h2⟩
  · intro w hw r r' h; cases hw; simp_all [words]
  · intro w hw r r' h; cases hw; exact ⟨rfl, List.append_cancel_left h⟩
  · intro ts vs hs ih w hw r r' h
    cases hw
    rename_i ws hs'
    simp only [words] at h
    obtain ⟨h1, h2⟩ := ih ws hs' r r' h
    exact ⟨by rw [h1], h2⟩
  · intro vars tag t' p hl hlook hp ih w hw r r' h
    cases hw with
    | variant _ tag' t'' p' hl' hlook' hp' =>
    rw [words_variant, words_variant, List.append_assoc, List.append_assoc] at h
    obtain ⟨h1, h2⟩ := bytesWords_prefix hl hl' h
    subst h1
    rw [hlook] at hlook'
    cases hlook'
    obtain ⟨h3, h4⟩ := ih p' hp' r r' h2
    exact ⟨by rw [h3], h4⟩
  · intro t' vs hl ha ih w hw r r' h
    cases hw with
    | array _ ws hl' ha' =>
    simp only [words, List.cons_append, List.cons.injEq] at h
    obtain ⟨h1, h2⟩ := ih ws ha' (ofNat_inj hl hl' h.1) r r' h.2
    exact ⟨by rw [h1], h2⟩
  · intro i x hx ih w hw r r' h
    cases hw
    rename_i hw'
    exact ih w hw' r r' h
  · intro ws hw r r' h; cases hw; simpa [wordsAll] using h
  · intro t v ts vs h1 h2 ih1 ih2 ws hw r r' h
    cases hw with
    | cons _ w _ ws' h1' h2' =>
    simp only [wordsAll, List.append_assoc] at h
    obtain ⟨e1, e2⟩ := ih1 w h1' _ _ h
    obtain ⟨e3, e4⟩ := ih2 ws' h2' _ _ e2
    exact ⟨by rw [e1, e3], e4⟩
  · intro t ws hw hl r r' h
    cases ws with
    | nil => simpa [wordsAll] using h
    | cons => simp at hl
  · intro t v vs h1 h2 ih1 ih2 ws hw hl r r' h
    cases hw with
    | nil => simp at hl
    | cons _ w ws' h1' h2' =>
    simp only [wordsAll, List.append_assoc] at h
    obtain ⟨e1, e2⟩ := ih1 w h1' _ _ h
    obtain ⟨e3, e4⟩ := ih2 ws' h2' (by simpa using hl) _ _ e2
    exact ⟨by rw [e1, e3], e4⟩

/-- **C47 (value framing).** For every type — tuples, records, variants, arrays, named recursive types — two different
values of the type feed different word sequences to the hasher, and neither sequence is a prefix of the other: what
follows in the same hasher cannot be confused with them. -/
theorem C47_value_framing (env : Nat → Ty) (t : Ty) (v w : Val) (hv : HasType env t v) (hw : HasType env t w)
    (hne : v ≠ w) : ∀ r r', words v ++ r ≠ words w ++ r' :=
  fun r r' h => hne (prefix_free hv w hw r r' h).1

/-! ### C13 on structural values -/

mutual
/-- No float zero and no function anywhere in the value, and float bit patterns are finite. -/
def Plain : Val → Prop
  | .float b => ∃ n m, Flt.decode b = .fin n m ∧ m ≠ 0
  | .prod vs => PlainAll vs
  | .variant _ p => Plain p
  | .array vs => PlainAll vs
  | .func => False
  | _ => True
def PlainAll : List Val → Prop
  | [] => True
  | v :: vs => Plain v ∧ PlainAll vs
end

theorem float_eq {a b : W} {n : Bool} {m : ℚ} (ha : Flt.decode a = .fin n m) (hm : m ≠ 0)
    (h : floatBitsEq a b = true) : a = b := by
  unfold floatBitsEq at h
  rw [ha] at h
  cases hb : Flt.decode b with
  | fin n' m' =>
    rw [hb] at h
    exact Flt.Props.C13_float_partial a b ⟨n, m⟩ ⟨n', m'⟩ ha hb
      (fun e => hm ((Flt.Props.val_zero_iff _).mp e)) h
  | inf => rw [hb] at h; simp at h
  | nan => rw [hb] at h; simp at h

theorem eqV_variant {t t' : List (BitVec 8)} {p p' : Val} (h : eqV (.variant t p) (.variant t' p') = true) :
    t = t' ∧ (p = .unit ∨ eqV p p' = true) := by
  unfold eqV at h
  split at h
  · rename_i ht
    refine ⟨ht, ?_⟩
    cases p <;> simp_all
  · simp at h

theorem unit_type {env : Nat → Ty} {t : Ty} {v : Val} (hv : HasType env t v) (hu : v = .unit) :
    ∀ w, HasType env t w → w = .unit := by
  revert hu
  refine HasType.rec (motive_1 := fun t v _ => v = .unit → ∀ w, HasType env t w → w = .unit)
    (motive_2 := fun _ _ _ => True) (motive_3 := fun _ _ _ => True)
    ?_ ?_ ?_ ?_ ?_ ?_ ?_ ?_ ?_ ?_ ?_ ?_ ?_ ?_ hv
  case refine_5 => intro _ w hw; cases hw; rfl
  case refine_10 => intro i x _ ih hu w hw; cases hw; rename_i hw'; exact ih hu w hw'
  all_goals (intros; trivial)

theorem eq_of_eqV {env : Nat → Ty} {t : Ty} {v : Val} (hv : HasType env t v) :
    ∀ (w : Val), HasType env t w → Plain v → eqV v w = true → v = w := by
  refine HasType.rec
    (motive_1 := fun t v _ => ∀ (w : Val), HasType env t w → Plain v → eqV v w = true → v = w)
    (motive_2 := fun ts vs _ => ∀ (ws : List Val), HasTypes env ts ws → PlainAll vs → eqVs vs ws = true → vs = ws)
    (motive_3 := fun t vs _ => ∀ (ws : List Val), AllType env t ws → PlainAll vs → eqVs vs ws = true → vs = ws)
    ?_ ?_ ?_ ?_ ?_ ?_ ?_ ?_ ?_ ?_ ?_ ?_ ?_ ?_ hv
  · intro x w hw hp h; cases hw; simp_all [eqV]
  · intro b w hw hp h; cases hw; simp_all [eqV]
  · intro b w hw hp h
    cases hw
    simp only [eqV] at h
    simp only [Plain] at hp
    obtain ⟨n, m, h1, h2⟩ := hp
    rw [float_eq h1 h2 h]
  · intro bs hl w hw hp h; cases hw; simp_all [eqV]
  · intro w hw hp h; cases hw; rfl
  · intro w hw hp h; simp [Plain] at hp
  · intro ts vs hs ih w hw hp h
    cases hw
    rename_i ws hs'
    simp only [eqV] at h
    simp only [Plain] at hp
    rw [ih ws hs' hp h]
  · intro vars tag t' p hl hlook hpt ih w hw hp h
    cases hw with
    | variant _ tag' t'' p' hl' hlook' hpt' =>
    simp only [Plain] at hp
    obtain ⟨h1, h2⟩ := eqV_variant h
    subst h1
    rw [hlook] at hlook'
    cases hlook'
    rcases h2 with h2 | h2
    · rw [h2, unit_type hpt h2 p' hpt']
    · rw [ih p' hpt' hp h2]
  · intro t' vs hl ha ih w hw hp h
    cases hw with
    | array _ ws hl' ha' =>
    simp only [eqV] at h
    simp only [Plain] at hp
    split at h
    · rw [ih ws ha' hp h]
    · simp at h
  · intro i x hx ih w hw hp h
    cases hw
    rename_i hw'
    exact ih w hw' hp h
  · intro ws hw hp h; cases hw; rfl
  · intro t v ts vs h1 h2 ih1 ih2 ws hw hp h
    cases hw with
    | cons _ w _ ws' h1' h2' =>
    simp only [PlainAll] at hp
    simp only [eqVs] at h
    split at h
    · rename_i he
      rw [ih1 w h1' hp.1 he, ih2 ws' h2' hp.2 h]
    · simp at h
  · intro t ws hw hp h
    cases hw with
    | nil => rfl
    | cons => simp [eqVs] at h
  · intro t v vs h1 h2 ih1 ih2 ws hw hp h
    cases hw with
    | nil => simp [eqVs] at h
    | cons _ w ws' h1' h2' =>
    simp only [PlainAll] at hp
    simp only [eqVs] at h
    split at h
    · rename_i he
      rw [ih1 w h1' hp.1 he, ih2 ws' h2' hp.2 h]
    · simp at h

mutual
theorem eqV_refl : ∀ v : Val, Plain v → eqV v v = true
  | .int _, _ => by simp [eqV]
  | .bool _, _ => by simp [eqV]
  | .float b, h => by
      simp only [Plain] at h
      obtain ⟨n, m, h1, _⟩ := h
      simp [eqV, floatBitsEq, h1, Flt.equalFloat]
  | .str _, _ => by simp [eqV]
  | .unit, _ => by simp [eqV]
  | .prod vs, h => by
      simp only [Plain] at h
      simp only [eqV]; exact eqVs_refl vs h
  | .variant t p, h => by
      simp only [Plain] at h
      have := eqV_refl p h
      unfold eqV
      rw [if_pos rfl]
      split
      · rfl
      · exact this
  | .array vs, h => by
      simp only [Plain] at h
      simp only [eqV, if_true]; exact eqVs_refl vs h
  | .func, h => by simp [Plain] at h
theorem eqVs_refl : ∀ vs : List Val, PlainAll vs → eqVs vs vs = true
  | [], _ => by simp [eqVs]
  | v :: vs, h => by
      simp only [PlainAll] at h
      simp [eqVs, eqV_refl v h.1, eqVs_refl vs h.2]
end

/-- **C13 (structural values), partial.** For values of the same type, `==` on values without float zeros and functions
is exactly structural equality; therefore equal values leave any hasher in the same state.  Missing: values containing
a float zero (`C13_float_zero_violated`). -/
theorem C13_structural_partial (env : Nat → Ty) (t : Ty) (v w : Val) (hv : HasType env t v) (hw : HasType env t w)
    (hp : Plain v) : (eqV v w = true ↔ v = w) ∧ (eqV v w = true → ∀ state, hashV state v = hashV state w) := by
  have h1 : eqV v w = true → v = w := eq_of_eqV hv w hw hp
  exact ⟨⟨h1, fun h => by rw [← h]; exact eqV_refl v hp⟩, fun h s => by rw [h1 h]⟩

/-- Functions never compare equal, not even to themselves, so a value holding a function differs from itself. -/
theorem C13_function_not_reflexive : eqV .func .func = false ∧ eqV (.prod [.int 1#64, .func]) (.prod [.int 1#64, .func]) = false := by
  constructor <;> simp [eqV, eqVs]

/-- A recursive list type: `List = Nil | Cons (int, List)`; two values of it satisfy the hypotheses. -/
example : ∃ env v w, HasType env (.named 0) v ∧ HasType env (.named 0) w ∧ Plain v ∧ v ≠ w := by
  let nilT : List (BitVec 8) := [0#8]
  let consT : List (BitVec 8) := [1#8]
  let env : Nat → Ty := fun _ => .sum [(nilT, .unit), (consT, .prod [.int, .named 0])]
  have hnil : HasType env (.named 0) (.variant nilT .unit) :=
    .named 0 _ (.variant _ nilT .unit _ (by decide) (by rfl) .unit)
  refine ⟨env, .variant consT (.prod [.int 7#64, .variant nilT .unit]), .variant nilT .unit, ?_, hnil, ?_, ?_⟩
  · exact .named 0 _ (.variant _ consT (.prod [.int, .named 0]) _ (by decide) (by rfl)
      (.prod _ _ (.cons _ _ _ _ (.int _) (.cons _ _ _ _ hnil .nil))))
  · simp [Plain, PlainAll]
  · simp [nilT, consT]

end Ferlium.Hash.Props
