import Mathlib.Data.Complex.Basic
import Mathlib.Algebra.BigOperators.Ring.Finset
import Mathlib.Data.Nat.Factorial.Basic
import Mathlib.Data.Nat.Choose.Basic

/-!
# Padé approximations of the exponential function
-/

namespace QMat.Spec

open Finset

/-- Numerator of the Padé approximation of `exp` with degrees `a` and `b`; the denominator is `padeNum b a (-z)`. -/
noncomputable def padeNum (a b : ℕ) (z : ℂ) : ℂ := ∑ j ∈ range (a + 1), ((a + b - j).factorial * a.choose j : ℕ) * z ^ j

/-- The degrees that belong to `M` Legendre nodes. -/
def padeDegrees (qt : String) (M : ℕ) : ℕ × ℕ :=
  if qt = "GAUSS" then (M, M) else if qt = "RADAU-RIGHT" then (M - 1, M) else if qt = "RADAU-LEFT" then (M, M - 1) else (M - 1, M - 1)

end QMat.Spec
