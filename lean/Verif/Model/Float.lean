import Mathlib.Analysis.SpecialFunctions.Log.Basic
import Mathlib.Algebra.BigOperators.Group.Finset.Basic
import Mathlib.Data.Fintype.Basic
import Mathlib.Order.ConditionallyCompleteLattice.Finset
import Verif.Model.Py

/-!
# Model: `lagrange.py` in rounded arithmetic

The other files of the model compute with real numbers.  Here each single operation of numpy is followed by a rounding.  Sums and
products of arrays may be computed in any order (numpy uses blocks, pairwise summation and vector instructions), so
functions of the code that reduce arrays are relations between arguments and possible results.

Simplification: no overflow and no underflow (the range of exponents is unbounded).
-/

namespace QMat

/-- The rounding of real numbers to floating point numbers: the relative error is at most `u` (`2^-53` for the `float` of numpy with
rounding to nearest); floating point numbers are not changed, one is such a number.
Arithmetic of `lagrange.py` 180-230, 337-349, 508-523. -/
structure Rounding where
  fl : ℝ → ℝ
  u : ℝ
  u_nonneg : 0 ≤ u
  u_lt_one : u < 1
  err : ∀ x, |fl x - x| ≤ u * |x|
  idem : ∀ x, fl (fl x) = fl x
  one : fl 1 = 1

namespace Rounding

variable {ι : Type*} [DecidableEq ι] {n : ℕ} (R : Rounding)

/-- Results of reducing the entries `f i`, `i ∈ s`, with a rounded operation, in any order and with any brackets.
`lagrange.py` 185, 192, 349, 517, 523. -/
inductive Reduce (op : ℝ → ℝ → ℝ) (f : ι → ℝ) : Finset ι → ℝ → Prop
  | single (i : ι) : Reduce op f {i} (f i)
  | combine {s t : Finset ι} {a b : ℝ} (hst : Disjoint s t) (hs : Reduce op f s a) (ht : Reduce op f t b) :
      Reduce op f (s ∪ t) (R.fl (op a b))

/-- Possible results of `np.sum` of an array. `lagrange.py` 192, 349, 433. -/
def NpSum [Fintype ι] (f : ι → ℝ) (a : ℝ) : Prop :=
  (IsEmpty ι ∧ a = 0) ∨ R.Reduce (· + ·) f Finset.univ a

/-- Possible results of `np.prod` of an array. `lagrange.py` 185. -/
def NpProd [Fintype ι] (f : ι → ℝ) (a : ℝ) : Prop :=
  (IsEmpty ι ∧ a = 1) ∨ R.Reduce (· * ·) f Finset.univ a

/-- Possible results of a dot product of the entries in `s`, in any order, with or without fused multiply-add.
`lagrange.py` 249. -/
inductive DotReduce (x y : ι → ℝ) : Finset ι → ℝ → Prop
  | single (i : ι) : DotReduce x y {i} (R.fl (x i * y i))
  | combine {s t : Finset ι} {a b : ℝ} (hst : Disjoint s t) (hs : DotReduce x y s a) (ht : DotReduce x y t b) :
      DotReduce x y (s ∪ t) (R.fl (a + b))
  | fma {s : Finset ι} {a : ℝ} {i : ι} (hi : i ∉ s) (hs : DotReduce x y s a) :
      DotReduce x y (insert i s) (R.fl (a + x i * y i))

/-- Possible results of `np.dot` of two vectors. `lagrange.py` 249. -/
def NpDot [Fintype ι] (x y : ι → ℝ) (a : ℝ) : Prop :=
  (IsEmpty ι ∧ a = 0) ∨ R.DotReduce x y Finset.univ a

/-- `lagrange.py` 180-181: `diffs = points[:,None] - points[None,:]` with the diagonal set to 1. -/
noncomputable def diffs (x : Fin n → ℝ) (i j : Fin n) : ℝ := if i = j then 1 else R.fl (x i - x j)

/-- `lagrange.py` 183-187, `analytic`: possible weights. -/
def Analytic (x w : Fin n → ℝ) : Prop := ∀ i, ∃ p, R.NpProd (R.diffs x i) p ∧ w i = R.fl (1 / p)

/-- `lagrange.py` 229-230: `weights /= np.max(np.abs(weights))` (maximum and absolute value are exact). -/
noncomputable def scaled (w : Fin n → ℝ) (i : Fin n) : ℝ := R.fl (w i / ⨆ j, |w j|)

/-- `np.log` and `np.exp`, with relative errors of at most `v`. `lagrange.py` 192, 199. -/
structure Elementary where
  log : ℝ → ℝ
  exp : ℝ → ℝ
  v : ℝ
  v_nonneg : 0 ≤ v
  v_lt_one : v < 1
  log_err : ∀ y, |log y - Real.log y| ≤ v * |Real.log y|
  exp_err : ∀ y, |exp y - Real.exp y| ≤ v * Real.exp y

/-- `lagrange.py` 189-201, `logScale`: possible weights (products of signs are exact).  `wScale` is one of the entries of `wLog` in both
cases: the one of the point nearest to zero for `'ZERO'`, a largest one for `'MAX'`. -/
def LogScale (F : Elementary) (scaleRef : String) (x w : Fin n → ℝ) : Prop :=
  ∃ wLog : Fin n → ℝ, (∀ i, ∃ s, R.NpSum (fun j => F.log |R.diffs x i j|) s ∧ wLog i = -s) ∧
    ∃ k : Fin n, (scaleRef = "ZERO" ∧ (∀ i, |x k| ≤ |x i|) ∧ (∀ i < k, |x k| < |x i|) ∨
        scaleRef = "MAX" ∧ ∀ i, wLog i ≤ wLog k) ∧
      ∀ i, w i = R.fl (F.exp (R.fl (wLog i - wLog k)) * ∏ j, npSign (R.diffs x i j))

open Classical in
/-- `lagrange.py` 337-348: the entries `iDiff * self.weights` of a row before the normalisation; `iDiff` is the indicator of the
coincidence with a point if there is one (`1 / 0` is infinite). -/
noncomputable def rowTerms (x w : Fin n → ℝ) (t : ℝ) (j : Fin n) : ℝ :=
  if ∃ k, R.fl (t - x k) = 0 then R.fl ((if R.fl (t - x j) = 0 then 1 else 0) * w j)
  else R.fl (R.fl (1 / R.fl (t - x j)) * w j)

/-- `lagrange.py` 337-349: possible rows of `getInterpolationMatrix([t])` for distinct points. -/
def InterpolationRow (x w : Fin n → ℝ) (t : ℝ) (P : Fin n → ℝ) : Prop :=
  ∃ S, R.NpSum (R.rowTerms x w t) S ∧ ∀ j, P j = R.fl (R.rowTerms x w t j / S)

/-- `lagrange.py` 508-510: `iDiff` of `getDerivativeMatrix`. -/
noncomputable def dDiff (x : Fin n → ℝ) (i j : Fin n) : ℝ :=
  if R.fl (x i - x j) = 0 then 0 else R.fl (1 / R.fl (x i - x j))

/-- `lagrange.py` 512-513: `base = w[None,:]/w[:,None]; base *= iDiff`. -/
noncomputable def dBase (x w : Fin n → ℝ) (i j : Fin n) : ℝ := R.fl (R.fl (w j / w i) * R.dDiff x i j)

/-- `np.fill_diagonal(D, -D.sum(axis=-1))`: possible results. `lagrange.py` 517, 523. -/
def FillDiagonal (B D : Fin n → Fin n → ℝ) : Prop :=
  ∀ i, (∀ j, j ≠ i → D i j = B i j) ∧ ∃ S, R.NpSum (B i) S ∧ D i i = -S

/-- `lagrange.py` 515-517: possible results of `getDerivativeMatrix(1)` for distinct points. -/
def Derivative1 (x w : Fin n → ℝ) (D : Fin n → Fin n → ℝ) : Prop := R.FillDiagonal (R.dBase x w) D

/-- `lagrange.py` 520-523: possible results of `getDerivativeMatrix(2)` for distinct points. -/
def Derivative2 (x w : Fin n → ℝ) (D : Fin n → Fin n → ℝ) : Prop :=
  ∃ S : Fin n → ℝ, (∀ i, R.NpSum (R.dBase x w i) (S i)) ∧
    R.FillDiagonal (fun i j => R.fl (R.fl (-2 * R.dBase x w i j) * R.fl (R.dDiff x i j + S i))) D

end Rounding

end QMat
