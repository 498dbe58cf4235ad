import Mathlib.LinearAlgebra.Matrix.NonsingularInverse
import Mathlib.Analysis.Complex.Exponential

/-!
# Specification: spectral deferred correction sweeps on Dahlquist's equation
-/

namespace QMat.Spec

open Matrix

/-- A real matrix as a complex one. -/
noncomputable abbrev cmat {M : ℕ} (A : Matrix (Fin M) (Fin M) ℝ) : Matrix (Fin M) (Fin M) ℂ :=
  A.map Complex.ofReal

/-- `U 0, ..., U K` are the node values of `K` sweeps of one step of size `z = λ Δt` from the value `u`:
`U 0` is a copy of `u`, and `(I - z QΔ_k) U (k+1) = u + z (Q - QΔ_k) U k`. -/
structure SDCIterates {M : ℕ} (z : ℂ) (Q : Matrix (Fin M) (Fin M) ℝ)
    (QDelta : ℕ → Matrix (Fin M) (Fin M) ℝ) (K : ℕ) (u : ℂ) (U : ℕ → Fin M → ℂ) : Prop where
  copy : U 0 = fun _ => u
  sweep : ∀ k < K, (1 - z • cmat (QDelta k)) *ᵥ U (k + 1) =
    (fun _ => u) + (z • cmat (Q - QDelta k)) *ᵥ U k

/-- `v` solves the collocation problem of a step from `u`: `v = u + z Q v`. -/
def IsCollocationSolution {M : ℕ} (z : ℂ) (Q : Matrix (Fin M) (Fin M) ℝ) (u : ℂ) (v : Fin M → ℂ) : Prop :=
  v = (fun _ => u) + (z • cmat Q) *ᵥ v

/-- Taylor coefficients in `z` of the node values after `k` sweeps from the copy of `1`: the coefficient
of `z^{j+1}` of sweep `k+1` is `QΔ_k c + (Q - QΔ_k) c'` with `c`, `c'` the coefficients of `z^j` of the
sweeps `k+1` and `k`. -/
def sdcTaylor {R : Type*} [CommRing R] {M : ℕ} (Q : Matrix (Fin M) (Fin M) R)
    (QDelta : ℕ → Matrix (Fin M) (Fin M) R) : ℕ → ℕ → Fin M → R
  | _, 0 => fun _ => 1
  | 0, _ + 1 => fun _ => 0
  | k + 1, j + 1 => QDelta k *ᵥ sdcTaylor Q QDelta (k + 1) j + (Q - QDelta k) *ᵥ sdcTaylor Q QDelta k j

/-- Taylor coefficients in `z` of the factor of one step of `K` sweeps: with the quadrature of the given
weights, or with the last node value. -/
def sdcFactorTaylor {R : Type*} [CommRing R] {M : ℕ} (Q : Matrix (Fin M) (Fin M) R)
    (QDelta : ℕ → Matrix (Fin M) (Fin M) R) (K : ℕ) : Option (Fin M → R) → ℕ → R
  | none, j => if h : 0 < M then sdcTaylor Q QDelta K j ⟨M - 1, by omega⟩ else 0
  | some _, 0 => 1
  | some w, j + 1 => w ⬝ᵥ sdcTaylor Q QDelta K j

/-- The factor of one step agrees with `exp z` up to `z^p`. -/
def SDCLinearOrder {M : ℕ} (Q : Matrix (Fin M) (Fin M) ℝ) (QDelta : ℕ → Matrix (Fin M) (Fin M) ℝ)
    (K : ℕ) (w : Option (Fin M → ℝ)) (p : ℕ) : Prop :=
  ∀ j, j ≤ p → sdcFactorTaylor Q QDelta K w j = 1 / j.factorial

end QMat.Spec
