import Verif.Spec.FloatSDC

/-!
# Specification: rounding errors of SDC with computed coefficients
-/

namespace QMat.Spec

/-- The relative size of the errors of a sweep: `e` is the relative size of rounding errors, the rows of the computed matrices differ by at most
`δ` from the exact ones, `y` is the size of `z`, and `C`, `V`, `p`, `β` are the bounds of the exact sweeps. -/
noncomputable def coeffSweepErr (e C V p β y δ : ℝ) : ℝ := C * V * (e * (p + β + 3 * (y * δ)) + 3 * (y * δ))

/-- The error of one step, per unit of size of the value at its start, as `stepErr`, if the computed weights differ by at most `δ` and `d` is
`δ` times the size of `z`. -/
noncomputable def coeffStepErr (T e g d : ℝ) : Option ℝ → ℝ
  | none => T
  | some ω => stepErr T e g (some (ω + d)) + d * g

/-- Computed weights that differ from the exact ones by at most `δ`, if there are weights. -/
inductive WeightsNear (δ : ℝ) : Option (Σ k, Fin k → ℝ) → Option (Σ k, Fin k → ℝ) → Prop
  | lastNode : WeightsNear δ none none
  | quadrature {k : ℕ} {w w' : Fin k → ℝ} (h : ∑ i, |w' i - w i| ≤ δ) : WeightsNear δ (some ⟨k, w⟩) (some ⟨k, w'⟩)

end QMat.Spec
