import Verif.Spec.RKStep

/-!
# Specification: steps of spectral deferred correction on `u' = f(t, u)`
-/

namespace QMat.Spec

/-- One step of size `h` from `u` at time `t` with `K` sweeps `u^{k+1} = u + h QΔ_k f(u^{k+1}) + h (Q - QΔ_k) f(u^k)`, `f` taken at the times
of the nodes, from the copy `u^0 = u`; the result is the quadrature of `f(u^K)` with the given weights, or the last node value. -/
structure SDCTimeStep {M : ℕ} {E : Type*} [AddCommGroup E] [Module ℝ E] (c : Fin M → ℝ) (Q : Matrix (Fin M) (Fin M) ℝ)
    (QDelta : ℕ → Matrix (Fin M) (Fin M) ℝ) (K : ℕ) (w : Option (Fin M → ℝ)) (f : ℝ → E → E) (t h : ℝ) (u : E) (U : ℕ → Fin M → E)
    (u1 : E) : Prop where
  init : ∀ i, U 0 i = u
  sweep : ∀ k < K, ∀ i, U (k + 1) i = u + h • ∑ j, QDelta k i j • f (t + h * c j) (U (k + 1) j) +
    h • ∑ j, (Q i j - QDelta k i j) • f (t + h * c j) (U k j)
  quadrature : ∀ v, w = some v → u1 = u + h • ∑ j, v j • f (t + h * c j) (U K j)
  lastNode : w = none → ∃ hM : 0 < M, u1 = U K ⟨M - 1, by omega⟩

end QMat.Spec
