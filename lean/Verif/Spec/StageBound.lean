import Mathlib.Data.Real.Basic

/-!
# Bounds of the stage values
-/

namespace QMat.Spec

/-- Size of the inverse of the matrix of the stages with `M` Legendre nodes, per unit of `|λ dt|`. -/
noncomputable def stageFactor (qt : String) (M : ℕ) : ℝ := if qt = "LOBATTO" then 2 * (M:ℝ) ^ 2 else 2 * M

end QMat.Spec
