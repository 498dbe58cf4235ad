import Verif.Model.Lagrange
import Verif.Model.Nodes
import Mathlib.LinearAlgebra.Matrix.NonsingularInverse
import Mathlib.Analysis.Complex.Exponential

/-!
# Model of `qmat/qcoeff/__init__.py` (`QGenerator`) and `qmat/qcoeff/collocation.py`
-/

namespace QMat

open Matrix

/-! ## Base class -/

/-- `qcoeff/__init__.py` 64-69, `QGenerator.T`: the identity with `-1` below the diagonal
(`T[1:,:-1][np.diag_indices(M-1)] = -1`). -/
def qgenT (M : ℕ) : Matrix (Fin M) (Fin M) ℝ :=
  Matrix.of fun i j => if i = j then 1 else if (i : ℕ) = j + 1 then -1 else 0

/-- `qcoeff/__init__.py` 80-84, `QGenerator.Tinv`: `np.tri(M)`. -/
def qgenTinv (M : ℕ) : Matrix (Fin M) (Fin M) ℝ :=
  Matrix.of fun i j => if j ≤ i then 1 else 0

/-- `qcoeff/__init__.py` 71-78, `QGenerator.S`: `T @ Q`. -/
def qgenS {M : ℕ} (Q : Matrix (Fin M) (Fin M) ℝ) : Matrix (Fin M) (Fin M) ℝ := qgenT M * Q

/-- `qcoeff/__init__.py` 86-90, `QGenerator.hCoeffs`: interpolation at `1` from the nodes. -/
noncomputable def qgenHCoeffs {M : ℕ} (nodes : Fin M → ℝ) : PyResult (Fin M → ℝ) := do
  let approx ← LagrangeApproximation.new nodes
  return approx.getInterpolationMatrix (fun _ : Fin 1 => 1) 0

/-- The properties of a `QGenerator` object that the base-class methods use
(`qcoeff/__init__.py` 33-90, 127-135).  `S` and `hCoeffs` are fields because `Collocation` overrides
them.  Embedded weights carry their own size: a padded Runge-Kutta scheme keeps the unpadded ones. -/
structure QGenerator (M : ℕ) where
  nodes : Fin M → ℝ
  weights : Fin M → ℝ
  Q : Matrix (Fin M) (Fin M) ℝ
  S : PyResult (Matrix (Fin M) (Fin M) ℝ)
  hCoeffs : PyResult (Fin M → ℝ)
  weightsEmbedded : PyResult (Σ k, Fin k → ℝ)

/-- What `genCoeffs` returns: `[nodes, weights, mat]`, with `weights` stacked over the embedded
weights if asked, and `hCoeffs` appended if asked. `qcoeff/__init__.py` 115-125. -/
structure QCoeffs (M : ℕ) where
  nodes : Fin M → ℝ
  weights : Fin M → ℝ
  weights2 : Option (Fin M → ℝ)
  mat : Matrix (Fin M) (Fin M) ℝ
  hCoeffs : Option (Fin M → ℝ)

/-- `np.vstack([w, w2])` of two 1D arrays: the sizes must agree. `qcoeff/__init__.py` 122. -/
def npVstackSnd {M : ℕ} (w2 : Σ k, Fin k → ℝ) : PyResult (Fin M → ℝ) :=
  if h : w2.1 = M then .ok fun i => w2.2 (Fin.cast h.symm i) else .error .valueError

/-- `qcoeff/__init__.py` 92-125, `genCoeffs(form, hCoeffs, embedded)`. -/
noncomputable def QGenerator.genCoeffs {M : ℕ} (g : QGenerator M) (form : String := "Z2N")
    (hCoeffs : Bool := false) (embedded : Bool := false) : PyResult (QCoeffs M) := do
  let mat ← if form = "Z2N" then pure g.Q
    else if form = "N2N" then g.S
    else throw .valueError
  let w2 : Option (Fin M → ℝ) ← if embedded then do
      let w ← g.weightsEmbedded
      let w ← npVstackSnd w
      pure (some w)
    else pure none
  let h : Option (Fin M → ℝ) ← if hCoeffs then do
      let h ← g.hCoeffs
      pure (some h)
    else pure none
  return { nodes := g.nodes, weights := g.weights, weights2 := w2, mat := mat, hCoeffs := h }

open Classical in
/-- `np.linalg.solve(A, b)`; `LinAlgError` for a singular matrix. `qcoeff/__init__.py` 175, `sdc.py` 79. -/
noncomputable def npSolve {M : ℕ} (A : Matrix (Fin M) (Fin M) ℂ) (b : Fin M → ℂ) :
    PyResult (Fin M → ℂ) :=
  if A.det = 0 then .error .linAlgError else .ok (A⁻¹ *ᵥ b)

/-- `weights.dot(uStages)` for real weights; numpy raises `ValueError` when the sizes differ.
`qcoeff/__init__.py` 176, `sdc.py` 91. -/
noncomputable def npDot {M : ℕ} (w : Σ k, Fin k → ℝ) (u : Fin M → ℂ) : PyResult ℂ :=
  if h : w.1 = M then .ok (∑ i, (w.2 (Fin.cast h.symm i) : ℂ) * u i) else .error .valueError

/-- `qcoeff/__init__.py` 173-176: the time loop, returning the values of the steps after `u`. -/
noncomputable def dahlquistSteps {M : ℕ} (A : Matrix (Fin M) (Fin M) ℂ) (w : Σ k, Fin k → ℝ)
    (lamDt : ℂ) : ℕ → ℂ → PyResult (List ℂ)
  | 0, _ => .ok []
  | n + 1, u => do
    let b : Fin M → ℂ := fun _ => u
    let uStages ← npSolve A b
    let d ← npDot w uStages
    let u' := u + lamDt * d
    let rest ← dahlquistSteps A w lamDt n u'
    return u' :: rest

/-- `qcoeff/__init__.py` 137-178, `solveDahlquist(lam, u0, tEnd, nSteps, useEmbeddedWeights)`.
`np.zeros(nSteps+1)` of a negative size is a `ValueError`, `uNum[0] = u0` in an empty array an
`IndexError`, `tEnd/0` a `ZeroDivisionError` (Python numbers). -/
noncomputable def QGenerator.solveDahlquist {M : ℕ} (g : QGenerator M) (lam u0 : ℂ) (tEnd : ℝ)
    (nSteps : ℤ) (useEmbeddedWeights : Bool := false) : PyResult (List ℂ) := do
  let weights : Σ k, Fin k → ℝ ←
    if useEmbeddedWeights then g.weightsEmbedded else pure ⟨M, g.weights⟩
  if nSteps + 1 < 0 then throw .valueError
  if nSteps + 1 = 0 then throw .indexError
  if nSteps = 0 then throw .zeroDivisionError
  let dt : ℝ := tEnd / nSteps
  let A : Matrix (Fin M) (Fin M) ℂ := 1 - (lam * dt) • g.Q.map Complex.ofReal
  let rest ← dahlquistSteps A weights (lam * dt) nSteps.toNat u0
  return u0 :: rest

/-- `np.linalg.norm(v, ord=np.inf)` of a 1D array: the largest modulus.
`qcoeff/__init__.py` 209, `sdc.py` 139. -/
noncomputable def npNormInf (v : List ℂ) : ℝ := (v.map fun z => ‖z‖).foldr max 0

/-- `np.linalg.norm(uNum - uExact, ord=np.inf)` with `uExact` the values of `f` at the `nSteps + 1` entries of
`np.linspace(0, tEnd, nSteps+1)`: a negative number of entries is a `ValueError`; arrays of one entry are broadcast, other sizes
that differ are a `ValueError`, and so is the norm of an empty array. `qcoeff/__init__.py` 207-209, `sdc.py` 137-139. -/
noncomputable def errorInf (uNum : List ℂ) (nSteps : ℤ) (f : ℕ → ℂ) : PyResult ℝ := do
  if nSteps + 1 < 0 then throw .valueError
  let N := (nSteps + 1).toNat
  let diff : List ℂ ←
    if uNum.length = N then pure (uNum.mapIdx fun i u => u - f i)
    else if uNum.length = 1 then pure ((List.range N).map fun i => uNum.headD 0 - f i)
    else if N = 1 then pure (uNum.map fun u => u - f 0)
    else throw .valueError
  if diff.isEmpty then throw .valueError
  return npNormInf diff

/-- `qcoeff/__init__.py` 180-209, `errorDahlquist`, with `uNum` computed (`uNum=None`) or given. -/
noncomputable def QGenerator.errorDahlquist {M : ℕ} (g : QGenerator M) (lam u0 : ℂ) (tEnd : ℝ)
    (nSteps : ℤ) (uNum : Option (List ℂ) := none) (useEmbeddedWeights : Bool := false) :
    PyResult ℝ := do
  let uNum ← match uNum with
    | none => g.solveDahlquist lam u0 tEnd nSteps useEmbeddedWeights
    | some u => pure u
  errorInf uNum nSteps fun i => u0 * Complex.exp (lam * (i * (tEnd / nSteps) : ℝ))

/-! ## Collocation -/

/-- Attributes of a `Collocation` object. `collocation.py` 47-74. -/
structure Collocation (M : ℕ) where
  nodeType : String
  quadType : String
  tLeft : ℝ
  tRight : ℝ
  nodes : Fin M → ℝ
  approx : LagrangeApproximation M
  Q : Matrix (Fin M) (Fin M) ℝ
  weights : Fin M → ℝ

/-- `collocation.py` 52-56: nodes scaled from `[-1, 1]` to `[tLeft, tRight]`. -/
noncomputable def scaleNodes {M : ℕ} (tLeft tRight : ℝ) (x : Fin M → ℝ) : Fin M → ℝ := fun i =>
  (x i + 1) / 2 * (tRight - tLeft) + tLeft

open Classical in
/-- `collocation.py` 59: `if np.allclose(tLeft, nodes[0]): nodes[0] = tLeft` (index `0`). -/
noncomputable def snapAt {M : ℕ} (t : ℝ) (k : Fin M) (nodes : Fin M → ℝ) : Fin M → ℝ :=
  if npIsClose t (nodes k) then Function.update nodes k t else nodes

/-- `collocation.py` 59-60: both end nodes; `nodes[0]` of an empty array is an `IndexError`. -/
noncomputable def snapEnds {M : ℕ} (tLeft tRight : ℝ) (nodes : Fin M → ℝ) : PyResult (Fin M → ℝ) :=
  if h : 0 < M then
    .ok (snapAt tRight ⟨M - 1, by omega⟩ (snapAt tLeft ⟨0, h⟩ nodes))
  else .error .indexError

/-- The default rule of `getIntegrationMatrix` is `FEJER`, so the external rules are never called.
`collocation.py` 66-72, 90. -/
def noExternalQuad : LagrangeApproximation.ExternalQuad := ⟨fun _ => 0, fun _ => 0⟩

/-- `collocation.py` 47-74, `Collocation.__init__` (the convergence-test attribute set at 73-74 is not
modelled). -/
noncomputable def Collocation.new (M : ℕ) (nodeType quadType : String) (tLeft : ℝ := 0)
    (tRight : ℝ := 1) : PyResult (Collocation M) := do
  let gen ← NodesGenerator.new nodeType quadType
  let nodes ← gen.getNodes M
  let nodes := scaleNodes tLeft tRight nodes
  let nodes ← snapEnds tLeft tRight nodes
  let approx ← LagrangeApproximation.new nodes
  let Q ← approx.getIntegrationMatrix noExternalQuad fun i => (tLeft, nodes i)
  let w ← approx.getIntegrationMatrix noExternalQuad fun _ : Fin 1 => (tLeft, tRight)
  return { nodeType := nodeType, quadType := quadType, tLeft := tLeft, tRight := tRight,
           nodes := nodes, approx := approx, Q := Q, weights := w 0 }

namespace Collocation

variable {M : ℕ} (c : Collocation M)

/-- `collocation.py` 85-90, `Collocation.S`. -/
noncomputable def S : PyResult (Matrix (Fin M) (Fin M) ℝ) :=
  c.approx.getIntegrationMatrix noExternalQuad fun i =>
    (if (i : ℕ) = 0 then c.tLeft else c.nodes ⟨i - 1, lt_of_le_of_lt (Nat.sub_le _ _) i.isLt⟩,
      c.nodes i)

/-- `collocation.py` 92-94, `Collocation.hCoeffs`. -/
noncomputable def hCoeffs : Fin M → ℝ := c.approx.getInterpolationMatrix (fun _ : Fin 1 => 1) 0

/-- `collocation.py` 96-111, `Collocation.order`; `none` is Python's `None`, returned for a
quadrature type that is none of the four. -/
def order : Option ℕ :=
  if c.nodeType ≠ "LEGENDRE" then
    if c.quadType ∈ ["GAUSS", "LOBATTO"] ∧ c.nodeType ∈ ["EQUID", "CHEBY-1", "CHEBY-2"] then
      some (M + M % 2)
    else some M
  else if c.quadType = "GAUSS" then some (2 * M)
  else if pyStartsWith c.quadType "RADAU" then some (2 * M - 1)
  else if c.quadType = "LOBATTO" then some (2 * M - 2)
  else none

/-- `collocation.py` 76-94: a `Collocation` as a `QGenerator`; it has no embedded weights
(`qcoeff/__init__.py` 48-51). -/
noncomputable def toQGenerator : QGenerator M where
  nodes := c.nodes
  weights := c.weights
  Q := c.Q
  S := c.S
  hCoeffs := .ok c.hCoeffs
  weightsEmbedded := .error .notImplementedError

end Collocation

/-- `qcoeff/__init__.py` 58-61, `rightIsNode`: `nodes[-1] == 1.`; `IndexError` without nodes. -/
noncomputable def QGenerator.rightIsNode {M : ℕ} (g : QGenerator M) : PyResult Prop :=
  if h : 0 < M then .ok (g.nodes ⟨M - 1, by omega⟩ = 1) else .error .indexError

end QMat
