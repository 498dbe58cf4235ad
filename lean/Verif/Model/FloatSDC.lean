import Verif.Model.Float
import Verif.Model.SDC

/-!
# Model: `solveDahlquistSDC` in rounded arithmetic

Complex numbers are pairs of floating point numbers; the operations on their parts are rounded, and the real products of a complex product or
dot product are summed in any order (BLAS is free to choose one).  Hence the functions are relations between arguments and possible results.

Simplifications: no overflow and no underflow; no monitors (they do not change `uNum`).
-/

namespace QMat

open Matrix

namespace Rounding

variable {ι : Type*} [DecidableEq ι] [Fintype ι] {M : ℕ} (R : Rounding)

/-- Rounding of a complex number: of its parts. `sdc.py` 53, 78, 91. -/
noncomputable def cfl (z : ℂ) : ℂ := ⟨R.fl z.re, R.fl z.im⟩

/-- Possible results of a dot product of complex vectors: each part is a dot product with twice as many real products.
`sdc.py` 78, 91. -/
def NpCDot (x y : ι → ℂ) (a : ℂ) : Prop :=
  R.NpDot (Sum.elim (fun i => (x i).re) fun i => (x i).im) (Sum.elim (fun i => (y i).re) fun i => -(y i).im) a.re ∧
  R.NpDot (Sum.elim (fun i => (x i).re) fun i => (x i).im) (Sum.elim (fun i => (y i).im) fun i => (y i).re) a.im

/-- Possible results of a product of complex numbers. `sdc.py` 53, 78, 91. -/
def NpCMul (x y a : ℂ) : Prop := R.NpCDot (fun _ : Unit => x) (fun _ : Unit => y) a

/-- Possible values of `lam*dt` with `dt = tEnd/nSteps`. `sdc.py` 42, 53, 78, 91. -/
def LamDt (lam : ℂ) (tEnd : ℝ) (nSteps : ℕ) (c : ℂ) : Prop := R.NpCMul lam (R.fl (tEnd / nSteps) : ℝ) c

/-- `sdc.py` 53: possible matrices `np.eye(nNodes) - lam*dt*QDelta[k]`. -/
def SDCMatrix (lam : ℂ) (tEnd : ℝ) (nSteps : ℕ) (D : Matrix (Fin M) (Fin M) ℝ) (P : Matrix (Fin M) (Fin M) ℂ) : Prop :=
  ∃ c, R.LamDt lam tEnd nSteps c ∧
    ∀ i j, ∃ q, R.NpCMul c (D i j : ℝ) q ∧ P i j = R.cfl ((if i = j then 1 else 0) - q)

/-- `sdc.py` 78: possible values of `b = uNum[i] + lam*dt*(Q-QDelta[k]) @ uNodes`. -/
def SDCRhs (lam : ℂ) (tEnd : ℝ) (nSteps : ℕ) (Q D : Matrix (Fin M) (Fin M) ℝ) (ui : ℂ) (uNodes b : Fin M → ℂ) : Prop :=
  ∃ c, R.LamDt lam tEnd nSteps c ∧ ∃ B : Matrix (Fin M) (Fin M) ℂ,
    (∀ i j, R.NpCMul c (R.fl (Q i j - D i j) : ℝ) (B i j)) ∧ ∀ i, ∃ s, R.NpCDot (B i) uNodes s ∧ b i = R.cfl (ui + s)

end Rounding

/-- `np.linalg.solve` for matrices with complex entries (`sdc.py` 79): a backward stable method with the relative residual `σ` in the maximum
norm, that does not raise for a matrix that stays regular if it is changed by the relative amount `σ`: `‖x‖ ≤ v ‖A x‖` with
`σ v ‖A‖ < 1`. Gaussian elimination with pivoting is such a method, with `σ` a multiple of the unit of rounding that depends on
the size and on the growth of the pivots. -/
structure SolveOps where
  solve : {M : ℕ} → Matrix (Fin M) (Fin M) ℂ → (Fin M → ℂ) → PyResult (Fin M → ℂ)
  σ : ℝ
  σ_nonneg : 0 ≤ σ
  spec : ∀ {M : ℕ} (A : Matrix (Fin M) (Fin M) ℂ) (b : Fin M → ℂ) (v : ℝ), (∀ x, ‖x‖ ≤ v * ‖A *ᵥ x‖) →
    σ * v * (⨆ i, ∑ j, ‖A i j‖) < 1 → ∃ x, solve A b = .ok x ∧ ‖A *ᵥ x - b‖ ≤ σ * (⨆ i, ∑ j, ‖A i j‖) * ‖x‖

namespace Rounding

variable {M : ℕ} (R : Rounding) (S : SolveOps)

/-- `sdc.py` 68, 77-79: possible node values after a number of sweeps of a step from `ui`, with the matrices `P[k]`
(the product of `ui` with one is exact). -/
inductive SDCSweeps (lam : ℂ) (tEnd : ℝ) (nSteps : ℕ) (Q : Matrix (Fin M) (Fin M) ℝ) (QDelta : ℕ → Matrix (Fin M) (Fin M) ℝ)
    (P : ℕ → Matrix (Fin M) (Fin M) ℂ) (ui : ℂ) : ℕ → PyResult (Fin M → ℂ) → Prop
  | start : SDCSweeps lam tEnd nSteps Q QDelta P ui 0 (.ok fun _ => ui)
  | sweep {k : ℕ} {uNodes b : Fin M → ℂ} (h : SDCSweeps lam tEnd nSteps Q QDelta P ui k (.ok uNodes))
      (hb : R.SDCRhs lam tEnd nSteps Q (QDelta k) ui uNodes b) :
      SDCSweeps lam tEnd nSteps Q QDelta P ui (k + 1) (S.solve (P k) b)
  | raised {k : ℕ} {e : PyErr} (h : SDCSweeps lam tEnd nSteps Q QDelta P ui k (.error e)) :
      SDCSweeps lam tEnd nSteps Q QDelta P ui (k + 1) (.error e)

/-- `sdc.py` 88-91: possible results of the step update. -/
inductive SDCUpdate (lam : ℂ) (tEnd : ℝ) (nSteps : ℕ) (ui : ℂ) (uNodes : Fin M → ℂ) :
    Option (Σ k, Fin k → ℝ) → PyResult ℂ → Prop
  | lastNode (h : 0 < M) : SDCUpdate lam tEnd nSteps ui uNodes none (.ok (uNodes ⟨M - 1, by omega⟩))
  | noNode (h : M = 0) : SDCUpdate lam tEnd nSteps ui uNodes none (.error .indexError)
  | quadrature {w : Fin M → ℝ} {c s p : ℂ} (hc : R.LamDt lam tEnd nSteps c) (hs : R.NpCDot (fun i => (w i : ℂ)) uNodes s)
      (hp : R.NpCMul c s p) : SDCUpdate lam tEnd nSteps ui uNodes (some ⟨M, w⟩) (.ok (R.cfl (ui + p)))
  | badSize {w : Σ k, Fin k → ℝ} (h : w.1 ≠ M) : SDCUpdate lam tEnd nSteps ui uNodes (some w) (.error .valueError)

/-- `sdc.py` 55-56, 66-91: possible arrays `uNum[:i+1]` after `i` steps. -/
inductive SDCSteps (lam u0 : ℂ) (tEnd : ℝ) (nSteps nSweeps : ℕ) (Q : Matrix (Fin M) (Fin M) ℝ)
    (QDelta : ℕ → Matrix (Fin M) (Fin M) ℝ) (P : ℕ → Matrix (Fin M) (Fin M) ℂ) (weights : Option (Σ k, Fin k → ℝ)) :
    ℕ → PyResult (List ℂ) → Prop
  | start : SDCSteps lam u0 tEnd nSteps nSweeps Q QDelta P weights 0 (.ok [u0])
  | step {i : ℕ} {l : List ℂ} {ui : ℂ} {uNodes : Fin M → ℂ} {r : PyResult ℂ}
      (h : SDCSteps lam u0 tEnd nSteps nSweeps Q QDelta P weights i (.ok (l ++ [ui])))
      (hs : R.SDCSweeps S lam tEnd nSteps Q QDelta P ui nSweeps (.ok uNodes))
      (hu : R.SDCUpdate lam tEnd nSteps ui uNodes weights r) :
      SDCSteps lam u0 tEnd nSteps nSweeps Q QDelta P weights (i + 1) (r >>= fun u => .ok (l ++ [ui, u]))
  | raisedSweep {i : ℕ} {l : List ℂ} {ui : ℂ} {e : PyErr}
      (h : SDCSteps lam u0 tEnd nSteps nSweeps Q QDelta P weights i (.ok (l ++ [ui])))
      (hs : R.SDCSweeps S lam tEnd nSteps Q QDelta P ui nSweeps (.error e)) :
      SDCSteps lam u0 tEnd nSteps nSweeps Q QDelta P weights (i + 1) (.error e)
  | raised {i : ℕ} {e : PyErr} (h : SDCSteps lam u0 tEnd nSteps nSweeps Q QDelta P weights i (.error e)) :
      SDCSteps lam u0 tEnd nSteps nSweeps Q QDelta P weights (i + 1) (.error e)

/-- `sdc.py` 9-96: possible results of `solveDahlquistSDC` without monitors, for a square `Q` and a positive number of steps. -/
inductive SolveSDC (lam u0 : ℂ) (tEnd : ℝ) (nSteps : ℕ) (nSweeps : ℤ) (Q : Matrix (Fin M) (Fin M) ℝ) (QDelta : SDCQDelta)
    (weights : Option (Σ k, Fin k → ℝ)) : PyResult (List ℂ) → Prop
  | run {f : ℕ → Matrix (Fin M) (Fin M) ℝ} {P : ℕ → Matrix (Fin M) (Fin M) ℂ} {r : PyResult (List ℂ)}
      (hf : sdcQDelta M nSweeps QDelta = .ok f) (hP : ∀ k < nSweeps.toNat, R.SDCMatrix lam tEnd nSteps (f k) (P k))
      (h : R.SDCSteps S lam u0 tEnd nSteps nSweeps.toNat Q f P weights nSteps r) :
      SolveSDC lam u0 tEnd nSteps nSweeps Q QDelta weights r
  | badQDelta {e : PyErr} (hf : sdcQDelta M nSweeps QDelta = .error e) :
      SolveSDC lam u0 tEnd nSteps nSweeps Q QDelta weights (.error e)

end Rounding

end QMat
