import Verif.Model.FloatCollocation
import Verif.Model.Nodes

/-!
# Model: `nodes.py` in rounded arithmetic

Simplifications: no overflow and no underflow, as in `Model/Float`; the literals `0`, `1`, `2`, `0.25`, `0.5` are floating point numbers.
-/

namespace QMat

/-- External routines: `scipy.linalg.eigh_tridiagonal(d, e)[0]` gives eigenvalues that after sorting have errors of at most `θ` times a bound of the
entries; `np.linalg.solve` of a system of two equations that is not close to a singular one gives a solution with residuals of at most `σ` times a
bound of the entries and the solution.  `nodes.py` 102, 220. -/
structure NodeOps where
  eigh : (n : ℕ) → (ℕ → ℝ) → (ℕ → ℝ) → Fin n → ℝ
  θ : ℝ
  θ_nonneg : 0 ≤ θ
  eigh_err : ∀ (n : ℕ) (d e : ℕ → ℝ) (K : ℝ), (∀ k < n, |d k| ≤ K) → (∀ k, k + 1 < n → |e k| ≤ K) →
    ∀ i, |npSort (eigh n d e) i - npSort (eighTridiagonal n d e) i| ≤ θ * K
  solve2 : ℝ → ℝ → ℝ → ℝ → ℝ → ℝ → PyResult (ℝ × ℝ)
  σ : ℝ
  σ_nonneg : 0 ≤ σ
  solve2_err : ∀ a11 a12 a21 a22 f1 f2 K : ℝ, |a11| ≤ K → |a12| ≤ K → |a21| ≤ K → |a22| ≤ K →
    σ * K ^ 2 < |a11 * a22 - a12 * a21| → ∃ x y, solve2 a11 a12 a21 a22 f1 f2 = .ok (x, y) ∧
      |a11 * x + a12 * y - f1| ≤ σ * K * (|x| + |y|) ∧ |a21 * x + a22 * y - f2| ≤ σ * K * (|x| + |y|)

namespace Rounding

variable (R : Rounding)

/-- `nodes.py` 92-98: entry `i` of `np.linspace(-1, 1, num)`, that is `start + i * step` with the last entry replaced by `stop`. -/
noncomputable def linspace (num : ℕ) (i : ℕ) : ℝ :=
  if i + 1 = num then 1 else R.fl (R.fl (i * R.fl (R.fl (1 - (-1)) / ((num - 1 : ℕ) : ℝ))) + -1)

/-- `nodes.py` 130-155: `alpha`, that contains literals only. -/
noncomputable def nodeAlpha (nodeType : String) (k : ℕ) : ℝ :=
  if nodeType = "CHEBY-3" then (if k = 0 then 0.5 else 0)
  else if nodeType = "CHEBY-4" then (if k = 0 then -0.5 else 0) else 0

/-- `nodes.py` 130-155: `beta`. -/
noncomputable def nodeBeta (nodeType : String) (k : ℕ) : ℝ :=
  if nodeType = "LEGENDRE" then
    (if k = 0 then 2 else R.fl (R.fl ((k:ℝ) ^ 2) / R.fl (R.fl (4 * R.fl ((k:ℝ) ^ 2)) - 1)))
  else if nodeType = "CHEBY-1" then (if k = 1 then 0.5 else if k = 0 then R.fl Real.pi else 0.25)
  else if nodeType = "CHEBY-2" then (if k = 0 then R.fl (R.fl Real.pi / 2) else 0.25)
  else (if k = 0 then R.fl Real.pi else 0.25)

/-- `nodes.py` 182-187: loop body of `evalOrthogPoly` on the state `(pi[0], pi[1], pi[2])`. -/
noncomputable def orthogPolyStep (t : ℝ) (s : ℝ × ℝ × ℝ) (ab : ℝ × ℝ) : ℝ × ℝ × ℝ :=
  let p2 := R.fl (s.2.2 * R.fl (t - ab.1))
  let p0 := R.fl (s.1 * ab.2)
  let p2 := R.fl (p2 - p0)
  (s.2.1, p2, p2)

/-- `nodes.py` 158-188, `evalOrthogPoly(t, alpha, beta)` for a scalar `t` and arrays of length `m`. -/
noncomputable def evalOrthogPoly (t : ℝ) (alpha beta : ℕ → ℝ) (m : ℕ) : ℝ × ℝ :=
  let s := ((List.range m).map fun j => (alpha j, beta j)).foldl (R.orthogPolyStep t) (0, 1, 1)
  (s.1, s.2.1)

/-- `nodes.py` 191-221: recurrence coefficients of the Jacobi matrix; errors as in the exact model. -/
noncomputable def getTridiagCoefficients (E : NodeOps) (g : NodesGenerator) (nNodes : ℕ) : PyResult ((ℕ → ℝ) × (ℕ → ℝ)) := do
  let alpha := nodeAlpha g.nodeType
  let beta := R.nodeBeta g.nodeType
  if pyStartsWith g.quadType "RADAU" then
    let b : ℝ := if pyEndsWith g.quadType "LEFT" then -1 else 1
    let (b1, b2) := R.evalOrthogPoly b alpha beta (nNodes - 1)
    if b2 = 0 then .error .valueError
    else return (Function.update alpha (nNodes - 1) (R.fl (b - R.fl (R.fl (beta (nNodes - 1) * b1) / b2))), beta)
  else if g.quadType = "LOBATTO" then
    let a : ℝ := -1
    let b : ℝ := 1
    let (a2, a1) := R.evalOrthogPoly a alpha beta (nNodes - 1)
    let (b2, b1) := R.evalOrthogPoly b alpha beta (nNodes - 1)
    let (al, be) ← E.solve2 a1 a2 b1 b2 (R.fl (a * a1)) (R.fl (b * b1))
    return (Function.update alpha (nNodes - 1) al, Function.update beta (nNodes - 1) be)
  else return (alpha, beta)

open Classical in
/-- `nodes.py` 100-103: sorted eigenvalues, for node types with orthogonal polynomials; a negative entry of `beta[1:]` raises as in the exact
model. -/
noncomputable def getEigenvalues (E : NodeOps) (g : NodesGenerator) (nNodes : ℕ) : PyResult (Fin nNodes → ℝ) := do
  let (alpha, beta) ← R.getTridiagCoefficients E g nNodes
  if ∃ k, 1 ≤ k ∧ k < nNodes ∧ beta k < 0 then .error .valueError
  else return npSort (E.eigh nNodes alpha fun k => R.fl (Real.sqrt (beta (k + 1))))

/-- `nodes.py` 67-111, `getNodes(nNodes)`, for node types and quadrature types accepted by the constructor. -/
noncomputable def getNodes (E : NodeOps) (g : NodesGenerator) (nNodes : ℕ) : PyResult (Fin nNodes → ℝ) :=
  if (g.quadType = "LOBATTO" ∨ g.quadType = "RADAU-LEFT") ∧ nNodes < 2 then .error .valueError
  else if h : nNodes < 1 then .error .valueError
  else if g.nodeType = "EQUID" ∧ g.quadType = "GAUSS" then .ok fun i => R.linspace (nNodes + 2) (i + 1)
  else if g.nodeType = "EQUID" ∧ g.quadType = "LOBATTO" then .ok fun i => R.linspace nNodes i
  else if g.nodeType = "EQUID" ∧ g.quadType = "RADAU-RIGHT" then .ok fun i => R.linspace (nNodes + 1) (i + 1)
  else if g.nodeType = "EQUID" ∧ g.quadType = "RADAU-LEFT" then .ok fun i => R.linspace (nNodes + 1) i
  else do
    let nodes ← R.getEigenvalues E g nNodes
    return overwriteEnds g.quadType (by omega) nodes

end Rounding

end QMat
