import Mathlib.Data.Matrix.Mul
import Mathlib.Data.Real.Basic
import Mathlib.Data.Fin.Rev

/-!
# Specification: the coefficients of a method run backwards in time
-/

namespace QMat.Spec

/-- The coefficients `c'`, `A'`, `b'` are those of `c`, `A`, `b` with the time reversed:
`c'_i = 1 - c_{s+1-i}`, `b'_j = b_{s+1-j}` and `A'_ij = b_{s+1-j} - A_{s+1-i,s+1-j}`. -/
structure Mirrored {s : ℕ} (c : Fin s → ℝ) (A : Matrix (Fin s) (Fin s) ℝ) (b : Fin s → ℝ)
    (c' : Fin s → ℝ) (A' : Matrix (Fin s) (Fin s) ℝ) (b' : Fin s → ℝ) : Prop where
  nodes : ∀ i, c' i = 1 - c i.rev
  weights : ∀ j, b' j = b j.rev
  matrix : ∀ i j, A' i j = b j.rev - A i.rev j.rev

end QMat.Spec
