import Mathlib.Algebra.Polynomial.Eval.Defs
import Mathlib.Analysis.SpecialFunctions.Integrals.Basic

/-!
# Specification vocabulary: polynomial values and integrals
-/

namespace QMat.Spec

open Polynomial

/-- The vector of values `(p(x_0), ..., p(x_{n-1}))`. -/
noncomputable def vals {n : ℕ} (p : ℝ[X]) (x : Fin n → ℝ) : Fin n → ℝ := fun i => p.eval (x i)

/-- The integral of a polynomial from `a` to `b`. -/
noncomputable def polyInt (p : ℝ[X]) (a b : ℝ) : ℝ := ∫ t in a..b, p.eval t

/-- The weights `w` on the nodes `x` integrate `p` exactly from `a` to `b`. -/
def QuadExact {n : ℕ} (x w : Fin n → ℝ) (a b : ℝ) (p : ℝ[X]) : Prop :=
  ∑ i, w i * p.eval (x i) = polyInt p a b

end QMat.Spec
