import Verif.Proofs.JsonRead
import Verif.Props.DataText

/-! Data text does not tell an integral floating point number from an integer. -/
namespace Ferlium.Serde
open Ferlium.Text

variable {F : Type} (H : Host F)

/-- The integer with the same text as a floating point number, if there is one. -/
def textNum (f : F) : Data F :=
  match readInt (H.showFloat f) with
  | some i => if showInt i = H.showFloat f then .int i else .float f
  | none => .float f

theorem print_textNum (f : F) : print H (textNum H f) = print H (.float f) := by
  unfold textNum
  cases readInt (H.showFloat f) with
  | none => rfl
  | some i =>
    simp only
    split
    · rename_i e
      rw [print, print, e]
    · rfl

theorem textNum_shape (f : F) : (∃ i, textNum H f = .int i ∧ readInt (H.showFloat f) = some i) ∨ textNum H f = .float f := by
  unfold textNum
  cases readInt (H.showFloat f) with
  | none => exact .inr rfl
  | some i =>
    simp only
    split
    · exact .inl ⟨i, rfl, rfl⟩
    · exact .inr rfl

theorem print_variant {name : Text} {p : Data F} (h1 : p ≠ .unit) (h2 : ∀ a, p ≠ .tuple a) :
    print H (.variant name p) = if isIdentifier H.N name then
      (print H p).map fun t => push H.N (push H.N (push H.N name "(".toList) t) ")".toList else none := by
  cases p <;> first | rfl | exact (h1 rfl).elim | exact (h2 _ rfl).elim

mutual

theorem print_textForm : ∀ d : Data F, print H (textForm (textNum H) d) = print H d
  | .null => rfl
  | .unit => rfl
  | .bool _ => rfl
  | .int _ => rfl
  | .float f => by rw [textForm]; exact print_textNum H f
  | .string _ => rfl
  | .array a => by rw [textForm, print, print, printItems_textForm a]
  | .tuple .nil => rfl
  | .tuple (.cons v .nil) => by
    have := printItems_textForm (.cons v .nil) "(".toList true
    rw [textForm, print, this, print]
    simp only [textItems]
  | .tuple (.cons v (.cons w a)) => by
    have := printItems_textForm (.cons v (.cons w a)) "(".toList true
    rw [textForm, print, this, print]
    simp only [textItems]
  | .record .nil => rfl
  | .record (.cons n v o) => by
    have := printFields_textForm (.cons n v o) (push H.N "{".toList " ".toList) true
    rw [textForm, textFields, print, print]
    · rw [textFields] at this
      rw [this]
    all_goals simp
  | .set .nil => rfl
  | .set (.cons v a) => by
    have := printItems_textForm (.cons v a) (push H.N (push H.N "set".toList " {".toList) " ".toList) true
    rw [textForm, textItems, print, print]
    · rw [textItems] at this
      rw [this]
    all_goals simp
  | .map .nil => rfl
  | .map (.cons k v m) => by
    have := printPairs_textForm (.cons k v m) (push H.N "map {".toList " ".toList) true
    rw [textForm, textPairs, print, print]
    · rw [textPairs] at this
      rw [this]
    all_goals simp
  | .variant name p => by
    have hp := print_textForm p
    rw [textForm]
    match p with
    | .unit => rfl
    | .tuple a =>
      have := printItems_textForm a
      rw [textForm, print, print, this]
    | .float f =>
      rw [textForm] at hp ⊢
      rcases textNum_shape H f with ⟨i, e, _⟩ | e
      · rw [e] at hp ⊢
        rw [print_variant H (by simp) (by simp), print_variant H (by simp) (by simp), hp]
      · rw [e]
    | .null => rfl
    | .bool _ => rfl
    | .int _ => rfl
    | .string _ => rfl
    | .array _ =>
      rw [textForm] at hp ⊢
      rw [print_variant H (by simp) (by simp), print_variant H (by simp) (by simp), hp]
    | .record _ =>
      rw [textForm] at hp ⊢
      rw [print_variant H (by simp) (by simp), print_variant H (by simp) (by simp), hp]
    | .set _ =>
      rw [textForm] at hp ⊢
      rw [print_variant H (by simp) (by simp), print_variant H (by simp) (by simp), hp]
    | .map _ =>
      rw [textForm] at hp ⊢
      rw [print_variant H (by simp) (by simp), print_variant H (by simp) (by simp), hp]
    | .variant m q =>
      rw [textForm] at hp ⊢
      rw [print_variant H (name := name) (p := .variant m (textForm (textNum H) q)) (by simp) (by simp),
        print_variant H (name := name) (p := .variant m q) (by simp) (by simp), hp]

theorem printItems_textForm : ∀ (a : Items F) (r : Text) (b : Bool), printItems H r b (textItems (textNum H) a) = printItems H r b a
  | .nil, _, _ => rfl
  | .cons v rest, r, b => by
    rw [textItems, printItems, printItems, print_textForm v]
    congr 1
    funext t
    exact printItems_textForm rest _ _

theorem printFields_textForm : ∀ (a : Fields F) (r : Text) (b : Bool), printFields H r b (textFields (textNum H) a) = printFields H r b a
  | .nil, _, _ => rfl
  | .cons n v rest, r, b => by
    rw [textFields, printFields, printFields, print_textForm v]
    congr 1
    funext t
    exact printFields_textForm rest _ _

theorem printPairs_textForm : ∀ (a : Pairs F) (r : Text) (b : Bool), printPairs H r b (textPairs (textNum H) a) = printPairs H r b a
  | .nil, _, _ => rfl
  | .cons k v rest, r, b => by
    rw [textPairs, printPairs, printPairs, print_textForm k, print_textForm v]
    congr 1
    funext t
    congr 1
    funext t
    exact printPairs_textForm rest _ _

end

end Ferlium.Serde
