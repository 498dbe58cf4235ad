import Verif.Model.Py
import Mathlib.LinearAlgebra.Matrix.NonsingularInverse
import Mathlib.LinearAlgebra.Vandermonde
import Mathlib.Analysis.SpecialFunctions.Log.Base
import Mathlib.Analysis.Real.Sqrt

/-!
# Model of `qmat/utils/num.py`
-/

namespace QMat

open Matrix

/-! ## `numericalOrder` -/

/-- `x.mean()`. `num.py` 31-32. -/
noncomputable def npMean {n : ℕ} (x : Fin n → ℝ) : ℝ := (∑ i, x i) / n

/-- `num.py` 27-28: `x = np.log10(1/nSteps)`. -/
noncomputable def orderX {n : ℕ} (nSteps : Fin n → ℝ) : Fin n → ℝ := fun i =>
  Real.logb 10 (1 / nSteps i)

/-- `num.py` 9-43, `numericalOrder(nSteps, err)` for arrays of the same size of positive numbers, with two different numbers of
steps.  Division by zero (`sX = 0`, empty arrays) and logarithms of other numbers give `nan` in numpy and a number here:
`numericalOrderNp` has all the inputs. -/
noncomputable def numericalOrder {n : ℕ} (nSteps err : Fin n → ℝ) : ℝ × ℝ :=
  let x := orderX nSteps
  let y : Fin n → ℝ := fun i => Real.logb 10 (err i)
  let xMean := npMean x
  let yMean := npMean y
  let sX := ∑ i, (x i - xMean) ^ 2
  let sXY := ∑ i, (x i - xMean) * (y i - yMean)
  let beta := sXY / sX
  let alpha := yMean - beta * xMean
  let yHat : Fin n → ℝ := fun i => alpha + beta * x i
  let rmse := Real.sqrt (∑ i, (y i - yHat i) ^ 2)
  (beta, rmse / Real.sqrt n)

/-- Entry `i` of a list after broadcasting to a larger size: a single entry is repeated. `num.py` 34, 40. -/
def npBroadcast (l : List ℝ) (i : ℕ) : ℝ := l.getD (if l.length = 1 then 0 else i) 0

open Classical in
/-- `num.py` 9-43, `numericalOrder(nSteps, err)` for arrays of any sizes and entries; `none` is `nan`.  Different sizes raise
`ValueError` unless one of them is one.  Step numbers and errors that are not positive have an infinite or undefined logarithm, which
makes the means infinite or undefined and both results `nan`; so does `sX = 0`, a quotient `0/0`.  Without errors and with one step
number the sum of the residuals is an empty one. -/
noncomputable def numericalOrderNp (nSteps err : List ℝ) : PyResult (Option ℝ × Option ℝ) :=
  if nSteps.length ≠ err.length ∧ nSteps.length ≠ 1 ∧ err.length ≠ 1 then .error .valueError
  else if nSteps.length = 1 ∧ err.length = 0 then .ok (none, some 0)
  else if nSteps = [] ∨ err = [] ∨ (∃ s ∈ nSteps, s ≤ 0) ∨ ∃ e ∈ err, e ≤ 0 then .ok (none, none)
  else
    let N := if nSteps.length = 1 then err.length else nSteps.length
    let s : Fin N → ℝ := fun i => npBroadcast nSteps i
    let e : Fin N → ℝ := fun i => npBroadcast err i
    if ∑ i, (orderX s i - npMean (orderX s)) ^ 2 = 0 then .ok (none, none)
    else .ok (some (numericalOrder s e).1, some (numericalOrder s e).2)

/-! ## `lduFactorization` -/

/-- The three arrays `L`, `D`, `U` while the loops of `lduFactorization` run (`num.py` 68-71). -/
structure LDUState (n : ℕ) where
  L : Matrix (Fin n) (Fin n) ℝ
  D : Matrix (Fin n) (Fin n) ℝ
  U : Matrix (Fin n) (Fin n) ℝ

/-- `M[i, j] = x`. `num.py` 76-83. -/
def npSetEntry {n m : ℕ} (M : Matrix (Fin n) (Fin m) ℝ) (i : Fin n) (j : Fin m) (x : ℝ) :
    Matrix (Fin n) (Fin m) ℝ :=
  Matrix.of fun a b => if a = i ∧ b = j then x else M a b

/-- `num.py` 76, 80, 83: `np.sum(L[r, :i] * D[:i, :i].diagonal() * U[:i, c])`. -/
def lduDot {n : ℕ} (s : LDUState n) (i r c : Fin n) : ℝ :=
  ∑ k ∈ Finset.univ.filter (fun k => k < i), s.L r k * s.D k k * s.U k c

/-- `num.py` 80-83: body of the inner loop.  A zero pivot gives infinite or `nan` entries in numpy
and `0` here; the theorems assume non-zero pivots. -/
noncomputable def lduInner {n : ℕ} (A : Matrix (Fin n) (Fin n) ℝ) (i : Fin n) (s : LDUState n)
    (j : Fin n) : LDUState n :=
  let s := { s with L := npSetEntry s.L j i ((A j i - lduDot s i j i) / s.D i i) }
  { s with U := npSetEntry s.U i j ((A i j - lduDot s i i j) / s.D i i) }

/-- `num.py` 76-83: body of the outer loop, `for j in range(i + 1, n)`. -/
noncomputable def lduOuter {n : ℕ} (A : Matrix (Fin n) (Fin n) ℝ) (s : LDUState n) (i : Fin n) :
    LDUState n :=
  let s := { s with D := npSetEntry s.D i i (A i i - lduDot s i i i) }
  ((List.finRange n).filter fun j => i < j).foldl (lduInner A i) s

/-- `num.py` 46-85, `lduFactorization(A)`. -/
noncomputable def lduFactorization {n m : ℕ} (A : Matrix (Fin n) (Fin m) ℝ) :
    PyResult (LDUState n) :=
  if h : n = m then
    .ok ((List.finRange n).foldl (lduOuter (A.submatrix id (Fin.cast h))) ⟨1, 0, 1⟩)
  else .error .assertionError

/-! ## `getExtrapolationMatrix` -/

/-- `np.vander(x, N, increasing=True)`. `num.py` 110-111. -/
def npVander {n : ℕ} (x : Fin n → ℝ) (N : ℕ) : Matrix (Fin n) (Fin N) ℝ :=
  Matrix.of fun i j => x i ^ (j : ℕ)

open Classical in
/-- `np.linalg.solve(A, B)` with a matrix right-hand side; `LinAlgError` for a singular matrix.
`num.py` 112. -/
noncomputable def npSolveMat {n m : ℕ} (A : Matrix (Fin n) (Fin n) ℝ) (B : Matrix (Fin n) (Fin m) ℝ) :
    PyResult (Matrix (Fin n) (Fin m) ℝ) :=
  if A.det = 0 then .error .linAlgError else .ok (A⁻¹ * B)

/-- `num.py` 88-113, `getExtrapolationMatrix(nodes, times, pOrder)`; a negative number of columns in
`np.vander` is a `ValueError`. -/
noncomputable def getExtrapolationMatrix {M N : ℕ} (nodes : Fin M → ℝ) (times : Fin N → ℝ)
    (pOrder : Option ℤ := none) : PyResult (Matrix (Fin N) (Fin M) ℝ) := do
  let pOrder : ℤ := pOrder.getD (M - 1)
  if pOrder + 1 < 0 then throw .valueError
  let X := npVander nodes (pOrder + 1).toNat
  let T := npVander times (pOrder + 1).toNat
  let C ← npSolveMat (Xᵀ * X) Xᵀ
  return T * C

end QMat
