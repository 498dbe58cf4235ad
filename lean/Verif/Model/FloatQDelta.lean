import Verif.Model.Float
import Verif.Model.QDelta

/-!
# Model: `QDelta` coefficients that are computed from nodes, in rounded arithmetic

The classes of `timestepping.py` except `SOE`, and the classes of `diag.py` that divide the nodes.  Those of `algebraic.py` that copy entries of
`Q` (`Exact`, `QPar`, `GS`, `PIC`) make no rounding errors.

Simplifications: no overflow and no underflow; the integers the nodes are divided by are floating point numbers.
-/

namespace QMat

open Matrix

/-- The classes: `BE`, `FE`, `TRAP`, `BEPAR`, `TRAPAR` (`timestepping.py` 69-133), `MIN_SR_NS`, `Jumper`, `FlexJumper`, and `DNODES` with its
subclasses, given by their attribute `divider` (`diag.py` 121-144, 296-350). -/
inductive NodeClass
  | BE | FE | TRAP | BEPAR | TRAPAR | MIN_SR_NS | Jumper | FlexJumper
  | DNODES (divider : ℕ)

namespace Rounding

variable {M : ℕ} (R : Rounding)

/-- `timestepping.py` 39-52, `TimeStepping.__init__`. -/
noncomputable def timeStepping (nodes : Fin M → ℝ) (tLeft : ℝ) : PyResult (TimeStepping M) :=
  if 0 < M then
    .ok { nodes := nodes
          deltas := fun i =>
            if (i : ℕ) = 0 then R.fl (nodes i - tLeft)
            else R.fl (nodes i - nodes ⟨i - 1, lt_of_le_of_lt (Nat.sub_le _ _) i.isLt⟩)
          tLeft := tLeft }
  else .error .indexError

/-- `QDelta[i:, :M-i] += np.diag(v)`: one addition for each entry of the block. `timestepping.py` 76, 88, 104, 106. -/
noncomputable def addSubDiag (i : ℕ) (v : ℕ → ℝ) (QDelta : Matrix (Fin M) (Fin M) ℝ) : Matrix (Fin M) (Fin M) ℝ :=
  Matrix.of fun r c => if i ≤ (r : ℕ) ∧ (c : ℕ) < M - i then R.fl (QDelta r c + if (r : ℕ) = i + c then v c else 0) else QDelta r c

/-- `timestepping.py` 75-76, 103-104. -/
noncomputable def loopBE (g : TimeStepping M) (QDelta : Matrix (Fin M) (Fin M) ℝ) : Matrix (Fin M) (Fin M) ℝ :=
  (List.range M).foldl (fun QD i => R.addSubDiag i (fun r => atPos g.deltas r) QD) QDelta

/-- `timestepping.py` 87-88, 105-106. -/
noncomputable def loopFE (g : TimeStepping M) (QDelta : Matrix (Fin M) (Fin M) ℝ) : Matrix (Fin M) (Fin M) ℝ :=
  (List.range' 1 (M - 1)).foldl (fun QD i => R.addSubDiag i (fun r => atPos g.deltas (1 + r)) QD) QDelta

/-- `timestepping.py` 101-108, `TRAP.computeQDelta`. -/
noncomputable def computeTRAP (g : TimeStepping M) : Matrix (Fin M) (Fin M) ℝ :=
  Matrix.of fun r c => R.fl (R.loopFE g (R.loopBE g 0) r c / 2)

/-- `timestepping.py` 120-121, `BEPAR.computeQDelta`. -/
noncomputable def computeBEPAR (g : TimeStepping M) : Matrix (Fin M) (Fin M) ℝ :=
  Matrix.of fun r c => R.fl (Matrix.diagonal g.nodes r c - g.tLeft)

/-- `timestepping.py` 128-129, `TRAPAR.computeQDelta`. -/
noncomputable def computeTRAPAR (g : TimeStepping M) : Matrix (Fin M) (Fin M) ℝ :=
  Matrix.of fun r c => R.fl (Matrix.diagonal (fun i => R.fl (g.nodes i / 2)) r c - g.tLeft)

/-- `np.diag(nodes)/divider`. `diag.py` 144, 304, 316, 326. -/
noncomputable def dividedNodes (nodes : Fin M → ℝ) (divider : ℝ) : Matrix (Fin M) (Fin M) ℝ :=
  Matrix.of fun r c => R.fl (Matrix.diagonal nodes r c / divider)

/-- `computeQDelta(k)` of the classes. `timestepping.py` 69-133, `diag.py` 121-144, 296-350. -/
noncomputable def computeQDelta (nodes : Fin M → ℝ) (tLeft : ℝ) (k : Option ℤ) : NodeClass → PyResult (Matrix (Fin M) (Fin M) ℝ)
  | .BE => do let g ← R.timeStepping nodes tLeft; return R.loopBE g 0
  | .FE => do let g ← R.timeStepping nodes tLeft; return R.loopFE g 0
  | .TRAP => do let g ← R.timeStepping nodes tLeft; return R.computeTRAP g
  | .BEPAR => do let g ← R.timeStepping nodes tLeft; return R.computeBEPAR g
  | .TRAPAR => do let g ← R.timeStepping nodes tLeft; return R.computeTRAPAR g
  | .MIN_SR_NS => .ok (R.dividedNodes nodes M)
  | .Jumper => do let k ← checkK k; return R.dividedNodes nodes (2 * k)
  | .FlexJumper => do
      let k ← checkK k
      let divider : ℤ := if k = 1 then 1 else 2 * (k - 1)
      return R.dividedNodes nodes divider
  | .DNODES divider => .ok (R.dividedNodes nodes divider)

/-- `qdelta/__init__.py` 151-169, `getSDelta`: possible products `T @ QDelta`. -/
def SDelta (QDelta S : Matrix (Fin M) (Fin M) ℝ) : Prop := ∀ i j, R.NpDot (fun l => qgenT M i l) (fun l => QDelta l j) (S i j)

/-- `timestepping.py` 91-93, `FE.dTau`. -/
noncomputable def dTauFE (g : TimeStepping M) (i : Fin M) : ℝ := R.fl (R.fl (g.nodes i * 0) + atPos g.deltas 0)

/-- `timestepping.py` 110-112, `TRAP.dTau`. -/
noncomputable def dTauTRAP (g : TimeStepping M) (i : Fin M) : ℝ := R.fl (R.fl (g.nodes i * 0) + R.fl (atPos g.deltas 0 / 2))

/-- `timestepping.py` 131-133, `TRAPAR.dTau`. -/
noncomputable def dTauTRAPAR (g : TimeStepping M) (i : Fin M) : ℝ := R.fl (R.fl (g.nodes i / 2) - g.tLeft)

end Rounding

end QMat
