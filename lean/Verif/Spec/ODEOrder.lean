import Verif.Spec.RKStep
import Mathlib.Analysis.Calculus.ContDiff.Defs
import Mathlib.Analysis.Calculus.Deriv.Basic

/-!
# Specification: order of a one-step method on every smooth differential equation
-/

namespace QMat.Spec

variable {E : Type*} [NormedAddCommGroup E] [NormedSpace ℝ E]

/-- `y` solves `u' = f(t, u)` on `[t0, T]`. -/
def Solves (f : ℝ → E → E) (y : ℝ → E) (t0 T : ℝ) : Prop :=
  ∀ t ∈ Set.Icc t0 T, HasDerivWithinAt y (f t (y t)) (Set.Icc t0 T) t

/-- `f` is `p` times continuously differentiable near the graph of `y` on `[t0, T]`. -/
def SmoothAlong (p : ℕ) (f : ℝ → E → E) (y : ℝ → E) (t0 T : ℝ) : Prop :=
  ∀ t ∈ Set.Icc t0 T, ContDiffAt ℝ p (fun q : ℝ × E => f q.1 q.2) (t, y t)

/-- The step of size `h` from `u` at time `t` with stages at distance less than `ρ` from `u`. -/
def NearStep {s : ℕ} (c : Fin s → ℝ) (A : Matrix (Fin s) (Fin s) ℝ) (b : Fin s → ℝ) (f : ℝ → E → E) (t h : ℝ)
    (u : E) (ρ : ℝ) (Y : Fin s → E) (u1 : E) : Prop :=
  RKStep c A b f t h u Y u1 ∧ ∀ i, ‖Y i - u‖ < ρ

/-- Consistency of order `p` along the solution `y`: one step from the exact solution is possible in exactly one way, if the step is
small enough, and misses the exact solution by at most `C h^(p+1)`. -/
def LocalOrder {s : ℕ} (c : Fin s → ℝ) (A : Matrix (Fin s) (Fin s) ℝ) (b : Fin s → ℝ) (p : ℕ) (f : ℝ → E → E)
    (y : ℝ → E) (t0 T : ℝ) : Prop :=
  ∃ ρ > 0, ∃ h0 > 0, ∃ C, ∀ t h, t0 ≤ t → 0 ≤ h → h < h0 → t + h ≤ T →
    (∃! v : (Fin s → E) × E, NearStep c A b f t h (y t) ρ v.1 v.2) ∧
    ∀ Y u1, NearStep c A b f t h (y t) ρ Y u1 → ‖u1 - y (t + h)‖ ≤ C * h ^ (p + 1)

/-- `N` steps of size `h` from the value `u0` at time `t0`. -/
structure RKRun {s : ℕ} (c : Fin s → ℝ) (A : Matrix (Fin s) (Fin s) ℝ) (b : Fin s → ℝ) (f : ℝ → E → E) (t0 h : ℝ)
    (u0 : E) (ρ : ℝ) (N : ℕ) (u : ℕ → E) (Y : ℕ → Fin s → E) : Prop where
  start : u 0 = u0
  step : ∀ n < N, NearStep c A b f (t0 + n * h) h (u n) ρ (Y n) (u (n + 1))

/-- Convergence of order `p` to the solution `y`: for every small step size all steps up to `T` can be done, in exactly one way, and all
values miss the exact solution by at most `C h^p`. -/
def GlobalOrder {s : ℕ} (c : Fin s → ℝ) (A : Matrix (Fin s) (Fin s) ℝ) (b : Fin s → ℝ) (p : ℕ) (f : ℝ → E → E)
    (y : ℝ → E) (t0 T : ℝ) : Prop :=
  ∃ ρ > 0, ∃ h0 > 0, ∃ C, ∀ h, 0 ≤ h → h < h0 → ∀ N : ℕ, t0 + N * h ≤ T →
    (∃ u Y, RKRun c A b f t0 h (y t0) ρ N u Y) ∧
    (∀ u Y, RKRun c A b f t0 h (y t0) ρ N u Y → ∀ n ≤ N, ‖u n - y (t0 + n * h)‖ ≤ C * h ^ p) ∧
    ∀ u Y u' Y', RKRun c A b f t0 h (y t0) ρ N u Y → RKRun c A b f t0 h (y t0) ρ N u' Y' →
      (∀ n ≤ N, u n = u' n) ∧ ∀ n < N, Y n = Y' n

end QMat.Spec
