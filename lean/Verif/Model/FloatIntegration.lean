import Verif.Model.Float
import Verif.Model.Lagrange

/-!
# Model: `computeFejerRule` and `getIntegrationMatrix` in rounded arithmetic

Simplifications: no overflow and no underflow, as in `Model/Float`; the quotients `2 * np.exp(1j * np.pi * K / n) / (1 - 4 * K**2)` and the
discrete Fourier transform are operations with given bounds of their errors (they are computed by numpy in complex arithmetic); in
`v1 = conj(v0[:0:-1]) + v0[:-1]` at most one of two terms is not zero, so this sum is exact.
-/

namespace QMat

/-- Operations of numpy used by `computeFejerRule`: the cosine, the complex quotients of `v0` with a relative error of at most `κ`, and
the inverse discrete Fourier transform with an error of at most `ρ` relative to the norms of vectors.
`lagrange.py` 55-77. -/
structure FejerOps where
  cos : ℝ → ℝ
  v : ℝ
  v_nonneg : 0 ≤ v
  cos_err : ∀ y, |cos y - Real.cos y| ≤ v * |Real.cos y|
  v0 : ℕ → ℕ → ℂ
  κ : ℝ
  κ_nonneg : 0 ≤ κ
  v0_err : ∀ n j, ‖v0 n j - fejerV0 n j‖ ≤ κ * ‖fejerV0 n j‖
  ifft : {n : ℕ} → (Fin n → ℂ) → Fin n → ℂ
  ρ : ℝ
  ρ_nonneg : 0 ≤ ρ
  ifft_err : ∀ {n : ℕ} (y : Fin n → ℂ) (k : Fin n), ‖ifft y k - npIfft y k‖ ≤ ρ * (√(∑ j, ‖y j‖ ^ 2) / √n)

namespace Rounding

variable {n m : ℕ} (R : Rounding)

/-- `lagrange.py` 55-60: the nodes, `theta *= 2; theta -= 1; theta *= np.pi / (2 * n)`, with `np.pi` rounded. -/
noncomputable def fejerNodes (F : FejerOps) (n : ℕ) (k : Fin n) : ℝ :=
  F.cos (R.fl (R.fl (R.fl (((n : ℝ) - k) * 2) - 1) * R.fl (R.fl Real.pi / (2 * n))))

/-- `lagrange.py` 72-75: `v1`. -/
noncomputable def fejerV1 (F : FejerOps) (n : ℕ) (j : Fin n) : ℂ := (starRingEnd ℂ) (F.v0 n (n - j)) + F.v0 n j

/-- `lagrange.py` 33-84, `computeFejerRule(n)`, with the check of the imaginary parts (77-80). -/
noncomputable def computeFejerRule (F : FejerOps) (n : ℕ) : PyResult ((Fin n → ℝ) × (Fin n → ℝ)) := do
  let nodes := R.fejerNodes F n
  let w := F.ifft (fejerV1 F n)
  let imagMax ← npMax fun k => (w k).im
  if imagMax > 1 / 10 ^ 15 then
    throw .valueError
  return (nodes, fun k => (w k).re)

/-- `lagrange.py` 423 and 432: `(bj - aj) / 2`. -/
noncomputable def halfLength (a b : ℝ) : ℝ := R.fl (R.fl (b - a) / 2)

/-- `lagrange.py` 423: `tEval = (bj - aj) / 2 * tau + (bj + aj) / 2`. -/
noncomputable def tEval (a b tau : ℝ) : ℝ := R.fl (R.fl (R.halfLength a b * tau) + R.fl (R.fl (b + a) / 2))

/-- `lagrange.py` 420-433: possible rows of `getIntegrationMatrix([(a, b)])` for distinct points, with a quadrature rule `tau, omega`:
interpolation at all `tEval`, products with `omega` and with `(bj - aj) / 2`, and a sum in any order. -/
def IntegrationRow (x w : Fin n → ℝ) (tau omega : Fin m → ℝ) (a b : ℝ) (Q : Fin n → ℝ) : Prop :=
  ∃ P : Fin m → Fin n → ℝ, (∀ k, R.InterpolationRow x w (R.tEval a b (tau k)) (P k)) ∧
    ∀ j, R.NpSum (fun k => R.fl (R.fl (P k j * omega k) * R.halfLength a b)) (Q j)

/-- `lagrange.py` 416-433: possible rows of `getIntegrationMatrix([(a, b)], numQuad='FEJER')`, or the error of the rule. -/
def FejerRow (F : FejerOps) (x w : Fin n → ℝ) (a b : ℝ) (Q : Fin n → ℝ) : Prop :=
  ∃ tau omega, R.computeFejerRule F (n - (n + 1) % 2) = .ok (tau, omega) ∧ R.IntegrationRow x w tau omega a b Q

end Rounding

end QMat
