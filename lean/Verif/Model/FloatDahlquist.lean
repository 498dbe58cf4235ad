import Verif.Model.FloatSDC

/-!
# Model: `solveDahlquist` in rounded arithmetic

The arrays `Q` and `weights` are given: they are the results of computations in rounded arithmetic themselves.
The operations are those of `Model/FloatSDC`.

Simplifications: no overflow and no underflow; the number of steps is positive.
-/

namespace QMat

open Matrix

namespace Rounding

variable {M : ℕ} (R : Rounding) (S : SolveOps)

/-- `qcoeff/__init__.py` 168-176: possible arrays `uNum[:i+1]` after `i` steps with the matrix `A` (the product of `uNum[i]` with one is
exact; line 176 is line 91 of `sdc.py`). -/
inductive DahlquistSteps (lam u0 : ℂ) (tEnd : ℝ) (nSteps : ℕ) (A : Matrix (Fin M) (Fin M) ℂ) (weights : Σ k, Fin k → ℝ) :
    ℕ → PyResult (List ℂ) → Prop
  | start : DahlquistSteps lam u0 tEnd nSteps A weights 0 (.ok [u0])
  | step {i : ℕ} {l : List ℂ} {ui : ℂ} {uStages : Fin M → ℂ} {r : PyResult ℂ}
      (h : DahlquistSteps lam u0 tEnd nSteps A weights i (.ok (l ++ [ui])))
      (hs : S.solve A (fun _ => ui) = .ok uStages)
      (hu : R.SDCUpdate lam tEnd nSteps ui uStages (some weights) r) :
      DahlquistSteps lam u0 tEnd nSteps A weights (i + 1) (r >>= fun u => .ok (l ++ [ui, u]))
  | raisedSolve {i : ℕ} {l : List ℂ} {ui : ℂ} {e : PyErr}
      (h : DahlquistSteps lam u0 tEnd nSteps A weights i (.ok (l ++ [ui])))
      (hs : S.solve A (fun _ => ui) = .error e) :
      DahlquistSteps lam u0 tEnd nSteps A weights (i + 1) (.error e)
  | raised {i : ℕ} {e : PyErr} (h : DahlquistSteps lam u0 tEnd nSteps A weights i (.error e)) :
      DahlquistSteps lam u0 tEnd nSteps A weights (i + 1) (.error e)

/-- `qcoeff/__init__.py` 163-178: possible results of `solveDahlquist` with the arrays `Q` and `weights` (the embedded ones if they
are used); the matrix of line 172 is computed like the one of `sdc.py` 53. -/
def SolveDahlquist (lam u0 : ℂ) (tEnd : ℝ) (nSteps : ℕ) (Q : Matrix (Fin M) (Fin M) ℝ) (weights : Σ k, Fin k → ℝ)
    (r : PyResult (List ℂ)) : Prop :=
  ∃ A, R.SDCMatrix lam tEnd nSteps Q A ∧ R.DahlquistSteps S lam u0 tEnd nSteps A weights nSteps r

end Rounding

end QMat
