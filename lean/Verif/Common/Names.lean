/-
Injectivity of the numbered names (`f"b{i}"`, `f"a{i}"`, ...) used all over the code base.
-/
import Mathlib.Logic.Basic
namespace Grey.Names

theorem toDigits_inj {m n : Nat} (h : Nat.toDigits 10 m = Nat.toDigits 10 n) : m = n := by
  have := congrArg (fun l => Nat.ofDigitChars 10 l 0) h
  simpa [Nat.ofDigitChars_ten_toDigits] using this

theorem toString_inj {m n : Nat} (h : toString m = toString n) : m = n := by
  apply toDigits_inj
  have := congrArg String.toList h
  simpa using this

theorem prefix_inj {p : String} {m n : Nat} (h : p ++ toString m = p ++ toString n) : m = n := by
  apply toDigits_inj
  have := congrArg String.toList h
  simpa using this

end Grey.Names
