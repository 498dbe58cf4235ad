import Mathlib.Algebra.Polynomial.Eval.Degree
import Mathlib.Data.Real.Basic

/-!
# Specification: monic orthogonal polynomials by their three-term recurrence
-/

namespace QMat.Spec

open Polynomial

/-- `π_0 = 1`, `π_1 = X - α_0`, `π_{k+1} = (X - α_k) π_k - β_k π_{k-1}`. -/
noncomputable def orthPoly (α β : ℕ → ℝ) : ℕ → ℝ[X]
  | 0 => 1
  | 1 => X - C (α 0)
  | n + 2 => (X - C (α (n + 1))) * orthPoly α β (n + 1) - C (β (n + 1)) * orthPoly α β n

end QMat.Spec
