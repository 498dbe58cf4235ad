import Verif.Spec.RootedTree

/-!
# Specification: order conditions of spectral deferred correction on `u' = f(u)`

`K` sweeps `u^{k+1} = u0 + dt QΔ_k f(u^{k+1}) + dt (Q - QΔ_k) f(u^k)` from the copy `u^0 = u0` are a Runge-Kutta method
with `(K+1) M` stages; these are its elementary weights.
-/

namespace QMat.Spec

open Matrix

/-- Weight of the rooted tree `t` in the values `f(u^k)` at the nodes: `1` for the single vertex; otherwise the
product over the children of the root of their weights in `u^k`, which are zero for `k = 0` (`u^0` is constant) and
`QΔ_k f(u^{k+1}) + (Q - QΔ_k) f(u^k)` for `k + 1`. -/
def sdcStageWeight {M : ℕ} (Q : Matrix (Fin M) (Fin M) ℝ) (QDelta : ℕ → Matrix (Fin M) (Fin M) ℝ) :
    RTree → ℕ → Fin M → ℝ
  | .leaf => fun _ _ => 1
  | .graft t s => fun k i => match k with
    | 0 => 0
    | k + 1 => sdcStageWeight Q QDelta t (k + 1) i *
      (QDelta k *ᵥ sdcStageWeight Q QDelta s (k + 1) + (Q - QDelta k) *ᵥ sdcStageWeight Q QDelta s k) i

/-- Weight of the tree `t` in the node values `u^k`. -/
def sdcNodeWeight {M : ℕ} (Q : Matrix (Fin M) (Fin M) ℝ) (QDelta : ℕ → Matrix (Fin M) (Fin M) ℝ) (t : RTree) :
    ℕ → Fin M → ℝ
  | 0 => 0
  | k + 1 => QDelta k *ᵥ sdcStageWeight Q QDelta t (k + 1) + (Q - QDelta k) *ᵥ sdcStageWeight Q QDelta t k

/-- Weight of the tree `t` in the value after a step of `K` sweeps: with the quadrature of the given weights, or the last
node value. -/
def sdcElementaryWeight {M : ℕ} (Q : Matrix (Fin M) (Fin M) ℝ) (QDelta : ℕ → Matrix (Fin M) (Fin M) ℝ) (K : ℕ)
    (t : RTree) : Option (Fin M → ℝ) → ℝ
  | some w => w ⬝ᵥ sdcStageWeight Q QDelta t K
  | none => if h : 0 < M then sdcNodeWeight Q QDelta t K ⟨M - 1, by omega⟩ else 0

/-- All order conditions up to `p` vertices of a step of `K` sweeps. -/
def SDCTreeOrder {M : ℕ} (Q : Matrix (Fin M) (Fin M) ℝ) (QDelta : ℕ → Matrix (Fin M) (Fin M) ℝ) (K : ℕ)
    (w : Option (Fin M → ℝ)) (p : ℕ) : Prop :=
  ∀ t : RTree, t.order ≤ p → sdcElementaryWeight Q QDelta K t w = 1 / t.density

end QMat.Spec
