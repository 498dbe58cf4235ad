import Mathlib.Data.Nat.Factorial.Basic
import Mathlib.Data.Real.Basic

/-!
# Bounds of the error of one step against the exact solution
-/

namespace QMat.Spec

/-- Collocation with `M` nodes whose weights are exact for degrees below `p`, `y = |λ dt|`. -/
noncomputable def collocationError (y : ℝ) (M p : ℕ) : ℝ := 6 * y ^ (p + 1) / (M.factorial * (p - M).factorial)

/-- A method of order `p` for linear equations, with rows of size at most `q`. -/
noncomputable def methodError (y q : ℝ) (p : ℕ) : ℝ := 2 * (y * q) ^ (p + 1) + 2 * y ^ (p + 1) / (p + 1).factorial

end QMat.Spec
