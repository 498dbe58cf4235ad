import Verif.Spec.ODEOrder
import Verif.Spec.SDCTrees

/-!
# Specification: steps of spectral deferred correction on `u' = f(u)`, and their order
-/

namespace QMat.Spec

variable {E : Type*} [NormedAddCommGroup E] [NormedSpace ℝ E]

/-- One step of size `h` from `u` with `K` sweeps `u^{k+1} = u + h QΔ_k f(u^{k+1}) + h (Q - QΔ_k) f(u^k)` from the copy `u^0 = u`; the
result is the quadrature of `f(u^K)` with the given weights, or the last node value. All node values are at distance less than `ρ`
from `u`. -/
structure SDCStep {M : ℕ} (Q : Matrix (Fin M) (Fin M) ℝ) (QDelta : ℕ → Matrix (Fin M) (Fin M) ℝ) (K : ℕ)
    (w : Option (Fin M → ℝ)) (f : E → E) (h : ℝ) (u : E) (ρ : ℝ) (U : ℕ → Fin M → E) (u1 : E) : Prop where
  init : ∀ i, U 0 i = u
  sweep : ∀ k < K, ∀ i, U (k + 1) i
    = u + h • ∑ j, QDelta k i j • f (U (k + 1) j) + h • ∑ j, (Q i j - QDelta k i j) • f (U k j)
  near : ∀ k ≤ K, ∀ i, ‖U k i - u‖ < ρ
  quadrature : ∀ v, w = some v → u1 = u + h • ∑ j, v j • f (U K j)
  lastNode : w = none → ∃ hM : 0 < M, u1 = U K ⟨M - 1, by omega⟩

/-- Consistency of order `p` along the solution `y` of `u' = f(u)`. -/
def SDCLocalOrder {M : ℕ} (Q : Matrix (Fin M) (Fin M) ℝ) (QDelta : ℕ → Matrix (Fin M) (Fin M) ℝ) (K : ℕ)
    (w : Option (Fin M → ℝ)) (p : ℕ) (f : E → E) (y : ℝ → E) (t0 T : ℝ) : Prop :=
  ∃ ρ > 0, ∃ h0 > 0, ∃ C, ∀ t h, t0 ≤ t → 0 ≤ h → h < h0 → t + h ≤ T →
    (∃ U u1, SDCStep Q QDelta K w f h (y t) ρ U u1) ∧
    (∀ U u1 U' u1', SDCStep Q QDelta K w f h (y t) ρ U u1 → SDCStep Q QDelta K w f h (y t) ρ U' u1' →
      (∀ k ≤ K, U k = U' k) ∧ u1 = u1') ∧
    ∀ U u1, SDCStep Q QDelta K w f h (y t) ρ U u1 → ‖u1 - y (t + h)‖ ≤ C * h ^ (p + 1)

/-- `N` steps of size `h` from the value `u0`. -/
structure SDCRun {M : ℕ} (Q : Matrix (Fin M) (Fin M) ℝ) (QDelta : ℕ → Matrix (Fin M) (Fin M) ℝ) (K : ℕ)
    (w : Option (Fin M → ℝ)) (f : E → E) (h : ℝ) (u0 : E) (ρ : ℝ) (N : ℕ) (u : ℕ → E) : Prop where
  start : u 0 = u0
  step : ∀ n < N, ∃ U, SDCStep Q QDelta K w f h (u n) ρ U (u (n + 1))

/-- Convergence of order `p` to the solution `y` of `u' = f(u)`. -/
def SDCGlobalOrder {M : ℕ} (Q : Matrix (Fin M) (Fin M) ℝ) (QDelta : ℕ → Matrix (Fin M) (Fin M) ℝ) (K : ℕ)
    (w : Option (Fin M → ℝ)) (p : ℕ) (f : E → E) (y : ℝ → E) (t0 T : ℝ) : Prop :=
  ∃ ρ > 0, ∃ h0 > 0, ∃ C, ∀ h, 0 ≤ h → h < h0 → ∀ N : ℕ, t0 + N * h ≤ T →
    (∃ u, SDCRun Q QDelta K w f h (y t0) ρ N u) ∧
    (∀ u, SDCRun Q QDelta K w f h (y t0) ρ N u → ∀ n ≤ N, ‖u n - y (t0 + n * h)‖ ≤ C * h ^ p) ∧
    ∀ u u', SDCRun Q QDelta K w f h (y t0) ρ N u → SDCRun Q QDelta K w f h (y t0) ρ N u' →
      ∀ n ≤ N, u n = u' n

end QMat.Spec
