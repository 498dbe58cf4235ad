import Mathlib.Data.Matrix.Mul
import Mathlib.Data.Real.Basic
import Mathlib.Algebra.Module.BigOperators
import Mathlib.Algebra.BigOperators.Group.Finset.Basic

/-!
# Specification: one step of a Runge-Kutta method on `u' = f(t, u)`
-/

namespace QMat.Spec

/-- `Y` are the stages and `u1` is the result of one step of size `h` from `u` at time `t` with the coefficients
`c`, `A`, `b`: `Y_i = u + h Σ_j A_ij f(t + h c_j, Y_j)` and `u1 = u + h Σ_i b_i f(t + h c_i, Y_i)`. -/
structure RKStep {s : ℕ} {E : Type*} [AddCommGroup E] [Module ℝ E] (c : Fin s → ℝ) (A : Matrix (Fin s) (Fin s) ℝ)
    (b : Fin s → ℝ) (f : ℝ → E → E) (t h : ℝ) (u : E) (Y : Fin s → E) (u1 : E) : Prop where
  stages : ∀ i, Y i = u + h • ∑ j, A i j • f (t + h * c j) (Y j)
  result : u1 = u + h • ∑ i, b i • f (t + h * c i) (Y i)

/-- The matrix of algebraic stability: `b_i a_ij + b_j a_ji - b_i b_j`. -/
def stabMatrix {s : ℕ} (A : Matrix (Fin s) (Fin s) ℝ) (b : Fin s → ℝ) : Matrix (Fin s) (Fin s) ℝ :=
  Matrix.of fun i j => b i * A i j + b j * A j i - b i * b j

end QMat.Spec
