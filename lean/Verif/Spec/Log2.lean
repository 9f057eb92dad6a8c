import Mathlib.Analysis.SpecialFunctions.Log.Base

/-!
# Specification: the binary logarithm of the C++ library
-/

namespace Verif.Spec

/-- What is used of `std::log2`: it is exact for powers of two, and the error is below `2^-31` for positive `int` arguments
(the relative accuracy of `double` gives an error below `2^-47`). -/
structure AccurateLog2 (lg : ℕ → ℚ) : Prop where
  exact : ∀ k : ℕ, k < 31 → lg (2 ^ k) = k
  close : ∀ n : ℕ, 0 < n → n < 2 ^ 31 → |(lg n : ℝ) - Real.logb 2 n| < 1 / 2 ^ 31

end Verif.Spec
