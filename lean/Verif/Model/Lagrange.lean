import Verif.Model.Py
import Mathlib.Data.Matrix.Mul
import Mathlib.Analysis.SpecialFunctions.Log.Basic
import Mathlib.Analysis.SpecialFunctions.Trigonometric.Basic
import Mathlib.Analysis.SpecialFunctions.Complex.Circle

/-!
# Model of `qmat/lagrange.py`
-/

namespace QMat

open Matrix

/-! ## `computeFejerRule` -/

/-- `lagrange.py` 55-60: `theta = arange(1,n+1)[-1::-1]; theta*=2; theta-=1; theta*=pi/(2n);
nodes = cos(theta)`.  Entry `k` of the reversed `arange` is `n - k`. -/
noncomputable def fejerNodes (n : ℕ) : Fin n → ℝ := fun k =>
  Real.cos ((((n : ℝ) - k) * 2 - 1) * (Real.pi / (2 * n)))

/-- `lagrange.py` 64-65: `lN = len(np.arange(1, n, 2))`. -/
def fejerLN (n : ℕ) : ℕ := n / 2

/-- `lagrange.py` 68-71: `v0 = concatenate([2*exp(1j*pi*K/n)/(1-4*K**2), zeros(lN+1)])` where
`K = arange(m)`, `m = n - lN`; entry `j` of an array of size `n + 1`. -/
noncomputable def fejerV0 (n : ℕ) (j : ℕ) : ℂ :=
  if j < n - fejerLN n then
    2 * Complex.exp (Complex.I * Real.pi * j / n) / (1 - 4 * (j : ℂ) ^ 2)
  else 0

/-- `lagrange.py` 72-75: `v1 = conjugate(v0[:0:-1]) + v0[:-1]`, an array of size `n`; entry `j` of
`v0[:0:-1]` is `v0[n - j]`. -/
noncomputable def fejerV1 (n : ℕ) (j : Fin n) : ℂ :=
  (starRingEnd ℂ) (fejerV0 n (n - j)) + fejerV0 n j

/-- `np.fft.ifft(v)`: its defining sum. `lagrange.py` 77. -/
noncomputable def npIfft {n : ℕ} (v : Fin n → ℂ) (k : Fin n) : ℂ :=
  (1 / n) * ∑ j : Fin n, v j * Complex.exp (2 * Real.pi * Complex.I * j * k / n)

/-- `lagrange.py` 33-84, `computeFejerRule(n)`: nodes and weights, or `ValueError` if the largest
imaginary part of the transform exceeds `1e-15` (77-80; `max` of an empty array is a `ValueError`
too, so `n = 0` raises). -/
noncomputable def computeFejerRule (n : ℕ) : PyResult ((Fin n → ℝ) × (Fin n → ℝ)) := do
  let nodes := fejerNodes n
  let w := npIfft (fejerV1 n)
  let imagMax ← npMax fun k => (w k).im
  if imagMax > 1 / 10 ^ 15 then
    throw .valueError
  return (nodes, fun k => (w k).re)

/-! ## Barycentric weights -/

/-- `lagrange.py` 180-181: `diffs = points[:,None] - points[None,:]` with the diagonal set to 1. -/
noncomputable def wDiffs {m : ℕ} (x : Fin m → ℝ) (i j : Fin m) : ℝ :=
  if i = j then 1 else x i - x j

/-- `lagrange.py` 183-187, `analytic`. -/
noncomputable def analyticWeights {m : ℕ} (x : Fin m → ℝ) : Fin m → ℝ := fun i =>
  (∏ j, wDiffs x i j)⁻¹

/-- `lagrange.py` 189-201, `logScale`. -/
noncomputable def logScaleWeights {m : ℕ} (scaleRef : String) (x : Fin m → ℝ) :
    PyResult (Fin m → ℝ) := do
  let sign : Fin m → ℝ := fun i => ∏ j, npSign (wDiffs x i j)
  let wLog : Fin m → ℝ := fun i => -∑ j, Real.log |wDiffs x i j|
  let wScale ←
    if scaleRef = "ZERO" then do
      let k ← npArgmin fun i => |x i|
      pure (wLog k)
    else if scaleRef = "MAX" then npMax wLog
    else throw .notImplementedError
  return fun i => Real.exp (wLog i - wScale) * sign i

/-- `lagrange.py` 203-211, `chebfun`. -/
noncomputable def chebfunWeights {m : ℕ} (x : Fin m → ℝ) : PyResult (Fin m → ℝ) := do
  let xMax ← npMax x
  let xMin ← npMin x
  let diffs : Fin m → Fin m → ℝ := fun i j => wDiffs x i j * (4 / (xMax - xMin))
  let sign : Fin m → ℝ := fun i => ∏ j, npSign (diffs i j)
  let vv : Fin m → ℝ := fun i => Real.exp (∑ j, Real.log |diffs i j|)
  let invProd : Fin m → ℝ := fun i => (sign i * vv i)⁻¹
  let norm ← npMax fun i => |invProd i|
  return fun i => invProd i / norm

open Classical in
/-- `lagrange.py` 213-227: choice of the weight computation.  In `AUTO` mode `invProd **= -1` under
`errstate(divide='raise')` raises `FloatingPointError` exactly when a product is zero, and
`logScale` is used then (over the reals with distinct points this never happens, in floating point
it may, by underflow). -/
noncomputable def computeWeights {m : ℕ} (weightComputation scaleRef : String) (x : Fin m → ℝ) :
    PyResult (Fin m → ℝ) :=
  if weightComputation = "AUTO" then
    if ∃ i, ∏ j, wDiffs x i j = 0 then logScaleWeights scaleRef x else .ok (analyticWeights x)
  else if weightComputation = "FAST" then .ok (analyticWeights x)
  else if weightComputation = "STABLE" then logScaleWeights scaleRef x
  else if weightComputation = "CHEBFUN" then chebfunWeights x
  else .error .notImplementedError

/-- `lagrange.py` 229-230: `if scaleWeights: weights /= np.max(np.abs(weights))`. -/
noncomputable def scaleW {m : ℕ} (scaleWeights : Bool) (w : Fin m → ℝ) : PyResult (Fin m → ℝ) :=
  if scaleWeights then do
    let s ← npMax fun i => |w i|
    return fun i => w i / s
  else .ok w

/-! ## `LagrangeApproximation` -/

/-- How `_handleDuplicates` acts (`lagrange.py` 170-176, 254-280): pass through when all points are
distinct, otherwise gather columns with `_invIdx` and zero those in `_zerIdx`, the complement of
`_nnzIdx`. -/
inductive DupHandling (n m : ℕ)
  | passThrough (h : m = n)
  | gather (invIdx : Fin n → Fin m) (nnzIdx : Fin m → Fin n)

/-- Attributes of a `LagrangeApproximation` object (`lagrange.py` 141-155). -/
structure LagrangeApproximation (n : ℕ) where
  points : Fin n → ℝ
  nUniquePoints : ℕ
  uniquePoints : Fin nUniquePoints → ℝ
  weights : Fin nUniquePoints → ℝ
  dup : DupHandling n nUniquePoints
  fValues : Option (Fin n → ℝ)

/-- `return_inverse` of `np.unique` (`lagrange.py` 260-261): index of `points[i]` among the sorted
unique values. -/
noncomputable def npUniqueInverse {n : ℕ} (points : Fin n → ℝ) (i : Fin n) :
    Fin (npUniqueSize points) :=
  ((Finset.univ.image points).orderIsoOfFin rfl).symm
    ⟨points i, Finset.mem_image_of_mem _ (Finset.mem_univ i)⟩

/-- The positions of the `j`-th unique value, used by `return_index` and `np.where`. -/
theorem npUnique_fiber_nonempty {n : ℕ} (points : Fin n → ℝ) (j : Fin (npUniqueSize points)) :
    (Finset.univ.filter fun i => points i = npUnique points j).Nonempty := by
  have h : npUnique points j ∈ Finset.univ.image points := Finset.orderEmbOfFin_mem _ _ _
  obtain ⟨i, -, hi⟩ := Finset.mem_image.mp h
  exact ⟨i, by simpa using hi⟩

/-- `return_index` of `np.unique`: first position of each unique value (`lagrange.py` 263-264). -/
noncomputable def npUniqueFirst {n : ℕ} (points : Fin n → ℝ) (j : Fin (npUniqueSize points)) :
    Fin n :=
  (Finset.univ.filter fun i => points i = npUnique points j).min' (npUnique_fiber_nonempty points j)

/-- `np.max(np.where(points == pts))`: last position of each unique value (`lagrange.py`
266-268). -/
noncomputable def npUniqueLast {n : ℕ} (points : Fin n → ℝ) (j : Fin (npUniqueSize points)) :
    Fin n :=
  (Finset.univ.filter fun i => points i = npUnique points j).max' (npUnique_fiber_nonempty points j)

/-- `lagrange.py` 236-241: `fValues` must have the shape of `points`. -/
def checkFValues {n : ℕ} : Option (Σ k, Fin k → ℝ) → PyResult (Option (Fin n → ℝ))
  | none => .ok none
  | some ⟨k, f⟩ => if h : k = n then .ok (some fun i => f (Fin.cast h.symm i)) else .error .valueError

/-- `lagrange.py` 164-241, `LagrangeApproximation.__init__`.  Note that `uniquePoints` is `points`
itself, in the caller's order, when all points are distinct, while the weights are always those of
the sorted array `uniques` (line 178). -/
noncomputable def LagrangeApproximation.new {n : ℕ} (points : Fin n → ℝ)
    (weightComputation : String := "AUTO") (scaleWeights : Bool := false)
    (scaleRef : String := "MAX") (duplicates : String := "USE_LEFT")
    (fValues : Option (Σ k, Fin k → ℝ) := none) : PyResult (LagrangeApproximation n) :=
  let uniques := npUnique points
  if h : npUniqueSize points = n then do
    let w ← computeWeights weightComputation scaleRef uniques
    let w ← scaleW scaleWeights w
    let f ← checkFValues fValues
    return { points := points, nUniquePoints := n, uniquePoints := points,
             weights := fun i => w (Fin.cast h.symm i), dup := .passThrough rfl, fValues := f }
  else do
    let dup : DupHandling n (npUniqueSize points) ←
      if duplicates = "USE_LEFT" then
        pure (.gather (npUniqueInverse points) (npUniqueFirst points))
      else if duplicates = "USE_RIGHT" then
        pure (.gather (npUniqueInverse points) (npUniqueLast points))
      else throw .notImplementedError
    let w ← computeWeights weightComputation scaleRef uniques
    let w ← scaleW scaleWeights w
    let f ← checkFValues fValues
    return { points := points, nUniquePoints := npUniqueSize points, uniquePoints := uniques,
             weights := w, dup := dup, fValues := f }

namespace LagrangeApproximation

variable {n : ℕ} (L : LagrangeApproximation n)

open Classical in
/-- `lagrange.py` 272-280, `_handleDuplicates` / `_passThrough`. -/
noncomputable def handleDuplicates {r : ℕ} (M : Matrix (Fin r) (Fin L.nUniquePoints) ℝ) :
    Matrix (Fin r) (Fin n) ℝ :=
  match L.dup with
  | .passThrough h => Matrix.of fun i j => M i (Fin.cast h.symm j)
  | .gather invIdx nnzIdx => Matrix.of fun i j =>
      if j ∈ Set.range nnzIdx then M i (invIdx j) else 0

open Classical in
/-- `lagrange.py` 334-349: interpolation matrix on the unique points (`duplicates=False`).
`iDiff == ±inf` is `time = point`; such a row is replaced by the indicator of the coincidence. -/
noncomputable def interpolationMatrixU {r : ℕ} (times : Fin r → ℝ) :
    Matrix (Fin r) (Fin L.nUniquePoints) ℝ :=
  let concom : Fin r → Fin L.nUniquePoints → Prop := fun i j => times i - L.uniquePoints j = 0
  let iDiff : Fin r → Fin L.nUniquePoints → ℝ := fun i j =>
    if ∃ j', concom i j' then (if concom i j then 1 else 0)
    else 1 / (times i - L.uniquePoints j)
  let P : Fin r → Fin L.nUniquePoints → ℝ := fun i j => iDiff i j * L.weights j
  Matrix.of fun i j => P i j / ∑ j', P i j'

/-- `lagrange.py` 301-354, `getInterpolationMatrix(times)` with `duplicates=True` (the default). -/
noncomputable def getInterpolationMatrix {r : ℕ} (times : Fin r → ℝ) :
    Matrix (Fin r) (Fin n) ℝ :=
  L.handleDuplicates (L.interpolationMatrixU times)

/-- The quadrature rules available to `getIntegrationMatrix`: the two external Gauss-Legendre
routines are parameters (`leggauss`, `roots_legendre`), `m` being the number of points asked for.
`lagrange.py` 408-418. -/
structure ExternalQuad where
  leggauss : (m : ℕ) → (Fin m → ℝ) × (Fin m → ℝ)
  rootsLegendre : (m : ℕ) → (Fin m → ℝ) × (Fin m → ℝ)

/-- `lagrange.py` 420-433: quadrature of the interpolant over each interval with a given rule,
`duplicates=False`.  The `ravel`/`reshape` bookkeeping becomes the double index `(i, k)`. -/
noncomputable def integrationMatrixU {r q : ℕ} (iNodes iWeights : Fin q → ℝ)
    (intervals : Fin r → ℝ × ℝ) : Matrix (Fin r) (Fin L.nUniquePoints) ℝ :=
  let tEval : Fin r → Fin q → ℝ := fun i k =>
    ((intervals i).2 - (intervals i).1) / 2 * iNodes k + ((intervals i).2 + (intervals i).1) / 2
  Matrix.of fun i j =>
    ∑ k, L.interpolationMatrixU (tEval i) k j * iWeights k *
      (((intervals i).2 - (intervals i).1) / 2)

/-- `lagrange.py` 408-418: selection of the rule.  `self.n` is the number of points, duplicates
included; `computeFejerRule` gets `n - (n+1) % 2`. -/
noncomputable def quadRule (ext : ExternalQuad) (numQuad : String) (n : ℕ) :
    PyResult (Σ q, (Fin q → ℝ) × (Fin q → ℝ)) :=
  if numQuad = "LEGENDRE_NUMPY" then .ok ⟨_, ext.leggauss ((n + 1) / 2)⟩
  else if numQuad = "LEGENDRE_SCIPY" then .ok ⟨_, ext.rootsLegendre ((n + 1) / 2)⟩
  else if numQuad = "FEJER" then do
    let r ← computeFejerRule (n - (n + 1) % 2)
    return ⟨_, r⟩
  else .error .notImplementedError

/-- `lagrange.py` 357-438, `getIntegrationMatrix(intervals, numQuad)` with `duplicates=True`. -/
noncomputable def getIntegrationMatrix {r : ℕ} (ext : ExternalQuad) (intervals : Fin r → ℝ × ℝ)
    (numQuad : String := "FEJER") : PyResult (Matrix (Fin r) (Fin n) ℝ) := do
  let rule ← quadRule ext numQuad n
  return L.handleDuplicates (L.integrationMatrixU rule.2.1 rule.2.2 intervals)

open Classical in
/-- `lagrange.py` 508-510: `iDiff = 1/(x_i - x_j)` with infinite entries replaced by 0. -/
noncomputable def dDiff (i j : Fin L.nUniquePoints) : ℝ :=
  if L.uniquePoints i - L.uniquePoints j = 0 then 0
  else 1 / (L.uniquePoints i - L.uniquePoints j)

/-- `lagrange.py` 512-513: `base = w[None,:]/w[:,None]; base *= iDiff`. -/
noncomputable def dBase (i j : Fin L.nUniquePoints) : ℝ :=
  L.weights j / L.weights i * L.dDiff i j

/-- `np.fill_diagonal(D, -D.sum(axis=-1))`. `lagrange.py` 517, 523. -/
def fillDiagonalNegSum {m : ℕ} (D : Fin m → Fin m → ℝ) : Matrix (Fin m) (Fin m) ℝ :=
  Matrix.of fun i j => if i = j then -∑ k, D i k else D i j

/-- `lagrange.py` 515-517: `D1` on the unique points. -/
noncomputable def derivativeMatrix1U : Matrix (Fin L.nUniquePoints) (Fin L.nUniquePoints) ℝ :=
  fillDiagonalNegSum L.dBase

/-- `lagrange.py` 520-523: `D2` on the unique points. -/
noncomputable def derivativeMatrix2U : Matrix (Fin L.nUniquePoints) (Fin L.nUniquePoints) ℝ :=
  fillDiagonalNegSum fun i j => -2 * L.dBase i j * (L.dDiff i j + ∑ k, L.dBase i k)

/-- The `order` argument of `getDerivativeMatrix`: an integer or a string. `lagrange.py` 440, 503-504. -/
inductive DerivOrder
  | int (k : ℤ)
  | str (s : String)

/-- What `getDerivativeMatrix` returns: one matrix or the pair `(D1, D2)`. `lagrange.py` 525-532. -/
inductive DerivResult (m n : ℕ)
  | single (D : Matrix (Fin m) (Fin n) ℝ)
  | pair (D1 D2 : Matrix (Fin m) (Fin n) ℝ)

/-- `lagrange.py` 440-532, `getDerivativeMatrix(order)` with `duplicates=True`.  With duplicates the
result has `nUniquePoints` rows and `nPoints` columns. -/
noncomputable def getDerivativeMatrix (order : DerivOrder := .int 1) :
    PyResult (DerivResult L.nUniquePoints n) :=
  match order with
  | .int 1 => .ok (.single (L.handleDuplicates L.derivativeMatrix1U))
  | .int 2 => .ok (.single (L.handleDuplicates L.derivativeMatrix2U))
  | .str "ALL" =>
      .ok (.pair (L.handleDuplicates L.derivativeMatrix1U) (L.handleDuplicates L.derivativeMatrix2U))
  | _ => .error .notImplementedError

/-- `lagrange.py` 244-251, `__call__(t, fValues)` on the flattened times (`t.ravel()`, the result
has the shape of `t`).  `fValues` of another size make `dot` raise `ValueError`. -/
noncomputable def call {r : ℕ} (t : Fin r → ℝ) (fValues : Option (Σ k, Fin k → ℝ) := none) :
    PyResult (Fin r → ℝ) := do
  let f : Σ k, Fin k → ℝ ←
    match fValues with
    | some f => pure f
    | none =>
      match L.fValues with
      | some f => pure ⟨n, f⟩
      | none => throw .assertionError
  if h : f.1 = n then
    return L.getInterpolationMatrix t *ᵥ fun j => f.2 (Fin.cast h.symm j)
  else throw .valueError

end LagrangeApproximation

end QMat
