import Mathlib.LinearAlgebra.Lagrange
import Mathlib.Analysis.SpecialFunctions.Log.Basic

/-!
# Specification: bounds of rounding errors
-/

namespace QMat.Spec

/-- The usual bound `k u / (1 - k u)` of the relative error of `k` roundings. -/
noncomputable def gamma (u : ℝ) (k : ℕ) : ℝ := k * u / (1 - k * u)

/-- The Lebesgue function: the sum of the absolute values of the Lagrange polynomials. -/
noncomputable def lebesgue {n : ℕ} (x : Fin n → ℝ) (t : ℝ) : ℝ :=
  ∑ j, |(Lagrange.basis Finset.univ x j).eval t|

/-- Bound of the relative errors, on a logarithmic scale, of weights computed with logarithms, when sums have rounding errors of at most
`u`, logarithms and exponentials of at most `v` and `T` bounds the sums of absolute values of logarithms: `η` is a bound for the errors of the
sums of logarithms, to which one adds the errors of the difference with the reference, of the exponential and of the last product. -/
noncomputable def logScaleErr (u v : ℝ) (n : ℕ) (T : ℝ) : ℝ :=
  let ω := -Real.log (1 - u)
  let δ := -Real.log (1 - v)
  let g := Real.exp (δ + (n - 1) * ω) - 1
  let η := g * T + (n - 1) * (ω * (1 + g))
  η + u * (2 * (T + η)) + δ + ω

/-- The bound of errors of the entries: `n` points with errors of at most `δ` in an interval of length `h`, Lebesgue function of the exact
points of at most `Λ`, errors of evaluation times of at most `τ` and of weights of the quadrature rule of at most `η`. -/
noncomputable def collocationErr (u : ℝ) (n m : ℕ) (h Λ δ τ η : ℝ) : ℝ :=
  (h + 2 * δ) / 2 * ((1 + gamma u (3 * n + 2) * (1 + 4 * Λ) / (1 - gamma u (3 * n + 2) * (4 * Λ))) * (4 * Λ)
      * ((2 + m * η) * gamma u (m + 3) + m * η)
    + 2 * (gamma u (3 * n + 2) * (1 + 4 * Λ) / (1 - gamma u (3 * n + 2) * (4 * Λ)) * (4 * Λ)
      + 16 * ((n - 1 : ℕ) : ℝ) ^ 2 * Λ / h * τ))
  + (8 * Λ + 16 * ((n - 1 : ℕ) : ℝ) ^ 2 * Λ ^ 2) * δ

/-- The bound of the errors of nodes in `[-1, 1]` from orthogonal polynomials: `θ` for the eigenvalues, `σ` for the system of two equations of the
LOBATTO type. -/
noncomputable def nodesErr (u θ σ : ℝ) (nodeType quadType : String) (n : ℕ) : ℝ :=
  2 * θ + if quadType = "GAUSS" then 3 * u
    else if quadType = "LOBATTO" then 265 * n * u + 98 * (if nodeType = "CHEBY-3" ∨ nodeType = "CHEBY-4" then 2 * (n:ℝ) else 1) * σ
    else (8 * n + 3) * u

/-- The relative size of the rounding errors in a sweep of SDC with `n` nodes: rounded complex arithmetic with the unit `u`, and a solver with
relative residuals of at most `σ`. -/
noncomputable def sweepErr (u σ : ℝ) (n : ℕ) : ℝ :=
  (1 + √2 * gamma u 2) ^ 2 * (1 + u) ^ 2 * ((1 + u) * (1 + √2 * gamma u (2 * n)) + σ) - 1

/-- The accumulated errors of `k` sweeps with contraction factor `ρ` and errors `κ`, per unit of size of the node values. -/
noncomputable def sweepsErr (κ ρ : ℝ) (k : ℕ) : ℝ := κ / (1 - κ) * ∑ j ∈ Finset.range k, ((ρ + κ) / (1 - κ)) ^ j

end QMat.Spec
