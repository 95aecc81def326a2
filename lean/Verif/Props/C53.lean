import Verif.PathTyping

/-!
# C53: Function expressions are checked for types
-/

namespace Verif.JPath
open Rfc9535

/-- The compiler accepts a syntax tree exactly if its function expressions are well typed in the sense of RFC 9535: the function is known, it has as many
arguments as parameters, each argument fits its parameter, and the result fits the place. -/
theorem C53_welltyped (q : Query) : (compileQuery q).isSome = true ↔ WellTyped q := compileQuery_typed q

/-- `$[?length(@.a) > 1]`: accepted. -/
example : (compileQuery ⟨true, [.mk false [.filter (.cmp (.func b%"length" [.query false [.mk false [.name b%"a"]]]) .gt (.lit (.num 1)))]]⟩).isSome = true := by
  rw [C53_welltyped]
  simp only [WellTyped, SegsTyped, SegTyped, SelsTyped, SelTyped, CondTyped, ComparableTyped, and_true]
  exact ⟨[.value], .value, by decide, rfl, by simp [ArgsTyped, ArgTyped, Singular]⟩

/-- `$[?length(@.*) > 1]`: rejected, the query is not singular. -/
example : ¬ (compileQuery ⟨true, [.mk false [.filter (.cmp (.func b%"length" [.query false [.mk false [.wild]]]) .gt (.lit (.num 1)))]]⟩).isSome = true := by
  rw [C53_welltyped]
  simp only [WellTyped, SegsTyped, SegTyped, SelsTyped, SelTyped, CondTyped, ComparableTyped, and_true]
  rintro ⟨ps, r, h, -, ha⟩
  obtain ⟨rfl, -⟩ : ps = [.value] ∧ r = .value := by simpa [signatures] using h
  simp [ArgsTyped, ArgTyped, Singular] at ha

/-- `$[?count(@.*)]`: rejected, the result is a value. -/
example : ¬ (compileQuery ⟨true, [.mk false [.filter (.func b%"count" [.query false [.mk false [.wild]]])]]⟩).isSome = true := by
  rw [C53_welltyped]
  simp [WellTyped, SegsTyped, SegTyped, SelsTyped, SelTyped, CondTyped, signatures]

/-- `$[?match(@.a) == 1]`: rejected, the result is logical, and an argument is missing. -/
example : ¬ (compileQuery ⟨true, [.mk false [.filter (.cmp (.func b%"match" [.query false [.mk false [.name b%"a"]]]) .eq (.lit (.num 1)))]]⟩).isSome = true := by
  rw [C53_welltyped]
  simp [WellTyped, SegsTyped, SegTyped, SelsTyped, SelTyped, CondTyped, ComparableTyped, signatures]

end Verif.JPath
