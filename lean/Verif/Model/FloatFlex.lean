import Verif.Model.FloatQDelta

/-!
# Model: `MIN_SR_FLEX` in rounded arithmetic

Simplifications: as in `Model/FloatQDelta.lean`; what `MIN_SR_S.computeQDelta()` returns or raises in rounded arithmetic (`fsolve` and
Nelder-Mead) is a parameter.
-/

namespace QMat

namespace Rounding

variable {M : ℕ} (R : Rounding)

/-- `diag.py` 284-293, `MIN_SR_FLEX.computeQDelta(k)`; `nodes` are those of `self.coll`, `srs` is the result of `MIN_SR_S.computeQDelta()`. -/
noncomputable def computeMINSRFLEX (srs : PyResult (Matrix (Fin M) (Fin M) ℝ)) (nodes : Fin M → ℝ) (k : Option ℤ) :
    PyResult (Matrix (Fin M) (Fin M) ℝ) := do
  let k ← checkK k
  if k ≤ M then return Matrix.diagonal fun i => R.fl (nodes i / k)
  else srs

end Rounding

end QMat
