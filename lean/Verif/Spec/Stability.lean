import Mathlib.LinearAlgebra.Matrix.NonsingularInverse
import Mathlib.Analysis.Complex.Exponential

/-!
# Specification: stability function and linear order conditions of a Runge-Kutta tableau
-/

namespace QMat.Spec

open Matrix

/-- `R(z) = 1 + z bᵀ (I - z A)⁻¹ 1`. -/
noncomputable def stabilityFunction {M : ℕ} (A : Matrix (Fin M) (Fin M) ℝ) (b : Fin M → ℝ) (z : ℂ) : ℂ :=
  1 + z * ∑ i, (b i : ℂ) * ((1 - z • A.map Complex.ofReal)⁻¹ *ᵥ fun _ => 1) i

/-- `bᵀ A^{k-1} 1 = 1/k!` for `k = 1, ..., p`. -/
def LinearOrder {M : ℕ} (A : Matrix (Fin M) (Fin M) ℝ) (b : Fin M → ℝ) (p : ℕ) : Prop :=
  ∀ k, k < p → b ⬝ᵥ ((A ^ k) *ᵥ fun _ => 1) = 1 / (k + 1).factorial

end QMat.Spec
