import Verif.Spec.SDC
import Verif.Spec.Rounding
import Mathlib.Analysis.Seminorm
import Mathlib.Analysis.Normed.Group.Constructions

/-!
# Specification: rounding errors of SDC
-/

namespace QMat.Spec

open Matrix

/-- What is assumed on the sweeps `0, …, K-1`: `V` bounds the inverses of their matrices `I - z QΔ`, `p` and `β` the row sums of
`I - z QΔ` and `z (Q - QΔ)`, and the errors contract with the factor `ρ` in the norm `N`, which is between the maximum norm and
`C` times the maximum norm. -/
structure SweepBounds {M : ℕ} (z : ℂ) (Q : Matrix (Fin M) (Fin M) ℝ) (f : ℕ → Matrix (Fin M) (Fin M) ℝ) (K : ℕ)
    (N : Seminorm ℂ (Fin M → ℂ)) (C V p β ρ : ℝ) : Prop where
  V_nonneg : 0 ≤ V
  ρ_nonneg : 0 ≤ ρ
  diag : ∀ k < K, ∀ i, 1 + ‖z‖ * ∑ j, |f k i j| ≤ p
  rest : ∀ k < K, ∀ i, ‖z‖ * ∑ j, |Q i j - f k i j| ≤ β
  inv : ∀ k < K, ∀ x, ‖x‖ ≤ V * ‖(1 - z • cmat (f k)) *ᵥ x‖
  lower : ∀ x, ‖x‖ ≤ N x
  upper : ∀ x, N x ≤ C * ‖x‖
  contract : ∀ k < K, ∀ x x', (1 - z • cmat (f k)) *ᵥ x' = (z • cmat (Q - f k)) *ᵥ x → N x' ≤ ρ * N x

/-- The error of one step, per unit of size of the value at its start, when the node values have errors of at most `T` and a size of
at most `g`, and `e` is the relative size of rounding errors: `T` for the last node value (no weights), more for the quadrature
with `ω` the size of `z` times the weights. -/
noncomputable def stepErr (T e g : ℝ) : Option ℝ → ℝ
  | none => T
  | some ω => ω * T + e * (1 + ω * (g + T))

/-- The size of `z` times the weights. -/
noncomputable def weightsSize (z : ℂ) (w : Option (Σ k, Fin k → ℝ)) : Option ℝ := w.map fun w => ‖z‖ * ∑ i, |w.2 i|

/-- The relative size of the errors in the stages of a Runge-Kutta step: `e` is the relative size of rounding errors, `y` the size of `z`, `V`
bounds the inverse of `I - z Q`, `q` the row sums of `Q`, and the computed coefficients have rows that differ by at most `δ`. -/
noncomputable def stageErr (e V y q δ : ℝ) : ℝ := V * (e * (1 + y * (q + δ)) + y * δ)

/-- The error of one Runge-Kutta step, per unit of size of the value at its start. -/
noncomputable def dahlquistErr (e V y q δ : ℝ) : ℝ :=
  e + y * V / (1 - stageErr e V y q δ) * (q * stageErr e V y q δ + e * (q + δ) + δ)

end QMat.Spec
