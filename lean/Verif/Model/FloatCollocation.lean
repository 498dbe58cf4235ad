import Verif.Model.FloatIntegration
import Verif.Model.QCoeff

/-!
# Model: the constructor of `Collocation` in rounded arithmetic

Simplifications: no overflow and no underflow, as in `Model/Float`; the eigenvalues computed by `scipy.linalg.eigh_tridiagonal` are given
(`raw`, sorted), theorems assume a bound of their errors.
-/

namespace QMat

/-- `nodes.py` 104-109: the end nodes are overwritten. -/
def overwriteEnds {M : ℕ} (quadType : String) (hM : 0 < M) (raw : Fin M → ℝ) : Fin M → ℝ :=
  let nodes := if quadType = "LOBATTO" ∨ quadType = "RADAU-RIGHT" then Function.update raw ⟨M - 1, by omega⟩ 1 else raw
  if quadType = "LOBATTO" ∨ quadType = "RADAU-LEFT" then Function.update nodes ⟨0, hM⟩ (-1) else nodes

namespace Rounding

variable {M : ℕ} (R : Rounding)

/-- `collocation.py` 52-56: `nodes += 1; nodes /= 2; nodes *= (tRight-tLeft); nodes += tLeft`. -/
noncomputable def scaleNodes (tLeft tRight : ℝ) (x : Fin M → ℝ) : Fin M → ℝ := fun i =>
  R.fl (R.fl (R.fl (R.fl (x i + 1) / 2) * R.fl (tRight - tLeft)) + tLeft)

/-- `np.isclose(a, b)`, that is `abs(a - b) <= atol + rtol * abs(b)` with the default tolerances.  `collocation.py` 59-60. -/
def isClose (a b : ℝ) : Prop := |R.fl (a - b)| ≤ R.fl (R.fl (1 / 10 ^ 8) + R.fl (R.fl (1 / 10 ^ 5) * |b|))

open Classical in
/-- `collocation.py` 59: `if np.allclose(tLeft, nodes[0]): nodes[0] = tLeft` (index `0`). -/
noncomputable def snapAt (t : ℝ) (k : Fin M) (nodes : Fin M → ℝ) : Fin M → ℝ :=
  if R.isClose t (nodes k) then Function.update nodes k t else nodes

/-- `collocation.py` 50-60: the nodes of a collocation method. -/
noncomputable def collocationNodes (quadType : String) (hM : 0 < M) (raw : Fin M → ℝ) (tLeft tRight : ℝ) : Fin M → ℝ :=
  R.snapAt tRight ⟨M - 1, by omega⟩ (R.snapAt tLeft ⟨0, hM⟩ (R.scaleNodes tLeft tRight (overwriteEnds quadType hM raw)))

/-- `collocation.py` 47-71: possible values of `nodes`, `Q` and `weights` of a `Collocation` object (the weights of the Lagrange
polynomials are those of 'FAST', that 'AUTO' gives when there is no overflow). -/
def CollocationArrays (F : FejerOps) (quadType : String) (hM : 0 < M) (raw : Fin M → ℝ) (tLeft tRight : ℝ) (nodes : Fin M → ℝ)
    (Q : Fin M → Fin M → ℝ) (weights : Fin M → ℝ) : Prop :=
  nodes = R.collocationNodes quadType hM raw tLeft tRight ∧
    ∃ w, R.Analytic nodes w ∧ (∀ i, R.FejerRow F nodes w tLeft (nodes i) (Q i)) ∧ R.FejerRow F nodes w tLeft tRight weights

/-- `collocation.py` 85-90: possible values of `S`. -/
def CollocationS (F : FejerOps) (tLeft : ℝ) (nodes : Fin M → ℝ) (S : Fin M → Fin M → ℝ) : Prop :=
  ∃ w, R.Analytic nodes w ∧
    ∀ i : Fin M, R.FejerRow F nodes w (if h : 0 < (i : ℕ) then nodes ⟨i - 1, by omega⟩ else tLeft) (nodes i) (S i)

end Rounding

end QMat
