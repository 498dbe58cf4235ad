import Mathlib.LinearAlgebra.Matrix.Notation
import Mathlib.Data.Real.Basic

/-!
# Specification: rooted trees and the order conditions of Runge-Kutta methods

A rooted tree is written as `leaf` or `graft t s`, the tree `t` with `s` added as last child of its
root.
-/

namespace QMat.Spec

open Matrix

/-- Rooted trees. -/
inductive RTree
  | leaf
  | graft (t s : RTree)
  deriving DecidableEq

namespace RTree

/-- Number of vertices. -/
def order : RTree → ℕ
  | leaf => 1
  | graft t s => t.order + s.order

/-- Product of the densities of the children of the root. -/
def childDensity : RTree → ℕ
  | leaf => 1
  | graft t s => t.childDensity * (s.order * s.childDensity)

/-- Density `γ(t)`: product over all vertices of the size of the subtree hanging there. -/
def density (t : RTree) : ℕ := t.order * t.childDensity

/-- Product over the children `t'` of the root of `(A u(t'))_i`. -/
def stageWeight {s : ℕ} (A : Matrix (Fin s) (Fin s) ℝ) : RTree → Fin s → ℝ
  | leaf => fun _ => 1
  | graft t t' => fun i => stageWeight A t i * (A *ᵥ stageWeight A t') i

/-- Elementary weight `Φ(t)`. -/
def elementaryWeight {s : ℕ} (A : Matrix (Fin s) (Fin s) ℝ) (b : Fin s → ℝ) (t : RTree) : ℝ :=
  b ⬝ᵥ stageWeight A t

end RTree

/-- The order conditions up to `p`, up to an error `tol`: `Φ(t) = 1/γ(t)` for every rooted tree with at
most `p` vertices. -/
def TreeOrder {s : ℕ} (A : Matrix (Fin s) (Fin s) ℝ) (b : Fin s → ℝ) (p : ℕ) (tol : ℝ) : Prop :=
  ∀ t : RTree, t.order ≤ p → |t.elementaryWeight A b - 1 / t.density| ≤ tol

end QMat.Spec
