import Verif.Model.QCoeff
import Verif.Model.Num
import Verif.Model.MinCoeffs
import Mathlib.LinearAlgebra.Matrix.Charpoly.Coeff
import Mathlib.Analysis.SpecialFunctions.Pow.Real

/-!
# Model of `qmat/qdelta/{timestepping,algebraic,diag}.py`: the `computeQDelta` methods

Every function takes the attributes that the method reads and returns the matrix it computes.
-/

namespace QMat

open Matrix

/-! ## `timestepping.py` -/

/-- Attributes of a `TimeStepping` object (`timestepping.py` 39-52). -/
structure TimeStepping (M : ℕ) where
  nodes : Fin M → ℝ
  deltas : Fin M → ℝ
  tLeft : ℝ

/-- `timestepping.py` 39-52, `TimeStepping.__init__`: `deltas[0] = nodes[0] - tLeft`, then the
differences of consecutive nodes.  `nodes[0]` of an empty array is an `IndexError`.  (Nodes are
assumed to be given as floats: with an integer array, `deltas` would be truncated.) -/
noncomputable def TimeStepping.new {M : ℕ} (nodes : Fin M → ℝ) (tLeft : ℝ := 0) :
    PyResult (TimeStepping M) :=
  if 0 < M then
    .ok { nodes := nodes
          deltas := fun i =>
            if (i : ℕ) = 0 then nodes i - tLeft
            else nodes i - nodes ⟨i - 1, lt_of_le_of_lt (Nat.sub_le _ _) i.isLt⟩
          tLeft := tLeft }
  else .error .indexError

/-- `QDelta[i:, :M-i] += np.diag(v)` where `v` has size `M - i`; `v` is given as a function of the
position in the diagonal. `timestepping.py` 76, 88. -/
def addSubDiag {M : ℕ} (i : ℕ) (v : ℕ → ℝ) (QDelta : Matrix (Fin M) (Fin M) ℝ) :
    Matrix (Fin M) (Fin M) ℝ :=
  Matrix.of fun r c => QDelta r c + if (r : ℕ) = i + c then v c else 0

/-- `deltas[i]`, an entry of the array by position (only positions `< M` are read).
`timestepping.py` 76, 88, 93. -/
def atPos {M : ℕ} (v : Fin M → ℝ) (i : ℕ) : ℝ := if h : i < M then v ⟨i, h⟩ else 0

namespace TimeStepping

variable {M : ℕ} (g : TimeStepping M)

/-- `timestepping.py` 75-76 (and 103-104): `for i in range(M): QDelta[i:,:M-i] += diag(deltas[:M-i])`. -/
def loopBE (QDelta : Matrix (Fin M) (Fin M) ℝ) : Matrix (Fin M) (Fin M) ℝ :=
  (List.range M).foldl (fun QD i => addSubDiag i (fun r => atPos g.deltas r) QD) QDelta

/-- `timestepping.py` 87-88 (and 105-106):
`for i in range(1, M): QDelta[i:,:M-i] += diag(deltas[1:M-i+1])`. -/
def loopFE (QDelta : Matrix (Fin M) (Fin M) ℝ) : Matrix (Fin M) (Fin M) ℝ :=
  (List.range' 1 (M - 1)).foldl (fun QD i => addSubDiag i (fun r => atPos g.deltas (1 + r)) QD) QDelta

/-- `timestepping.py` 73-77, `BE.computeQDelta`. -/
def computeBE : Matrix (Fin M) (Fin M) ℝ := g.loopBE 0

/-- `timestepping.py` 85-89, `FE.computeQDelta`. -/
def computeFE : Matrix (Fin M) (Fin M) ℝ := g.loopFE 0

/-- `timestepping.py` 91-93 and 159-161, `FE.dTau` and `SOE.dTau`: `nodes*0 + deltas[0]`. -/
def dTauFE : Fin M → ℝ := fun i => g.nodes i * 0 + atPos g.deltas 0

/-- `timestepping.py` 101-108, `TRAP.computeQDelta`. -/
noncomputable def computeTRAP : Matrix (Fin M) (Fin M) ℝ :=
  Matrix.of fun r c => g.loopFE (g.loopBE 0) r c / 2

/-- `timestepping.py` 110-112, `TRAP.dTau`. -/
noncomputable def dTauTRAP : Fin M → ℝ := fun i => g.nodes i * 0 + atPos g.deltas 0 / 2

/-- `timestepping.py` 120-121, `BEPAR.computeQDelta`: `np.diag(nodes) - tLeft`; the scalar is
subtracted from every entry of the matrix. -/
def computeBEPAR : Matrix (Fin M) (Fin M) ℝ :=
  Matrix.of fun r c => Matrix.diagonal g.nodes r c - g.tLeft

/-- `timestepping.py` 128-129, `TRAPAR.computeQDelta`: `np.diag(nodes/2) - tLeft`. -/
noncomputable def computeTRAPAR : Matrix (Fin M) (Fin M) ℝ :=
  Matrix.of fun r c => Matrix.diagonal (fun i => g.nodes i / 2) r c - g.tLeft

/-- `timestepping.py` 131-133, `TRAPAR.dTau`. -/
noncomputable def dTauTRAPAR : Fin M → ℝ := fun i => g.nodes i / 2 - g.tLeft

/-- `timestepping.py` 144: `times = [0] + nodes.tolist()`. -/
def soeTimes : ℕ → ℝ
  | 0 => 0
  | i + 1 => atPos g.nodes i

/-- `timestepping.py` 145-148: `LagrangeApproximation(times[i:i+3]).getDerivativeMatrix()[1]`; row `1`
of the derivative matrix, which has one row per distinct point (`IndexError` if there is only one). -/
noncomputable def soeAlpha (i : ℕ) : PyResult (Fin 3 → ℝ) := do
  let L ← LagrangeApproximation.new fun j : Fin 3 => g.soeTimes (i + j)
  let D ← L.getDerivativeMatrix
  match D with
  | .single D => if h : 1 < L.nUniquePoints then return D ⟨1, h⟩ else throw .indexError
  | .pair _ _ => throw .valueError

/-- `timestepping.py` 151-155: the store of `1/ap1` and the loop over the columns of row `m`,
`for j in range(m-1): QDelta[m,j] = -a0/ap1*QDelta[m-1,j]; if m > 1: QDelta[m,j] -= am1/ap1*QDelta[m-2,j]`,
on a matrix indexed by positions. -/
noncomputable def soeRow (a : Fin 3 → ℝ) (m : ℕ) (QDelta : ℕ → ℕ → ℝ) : ℕ → ℕ → ℝ :=
  (List.range (m - 1)).foldl
    (fun QD j => Function.update QD m (Function.update (QD m) j
      (if m > 1 then -(a 1) / a 2 * QD (m - 1) j - a 0 / a 2 * QD (m - 2) j
        else -(a 1) / a 2 * QD (m - 1) j)))
    (Function.update QDelta m (Function.update (QDelta m) (m - 1) (1 / a 2)))

/-- `timestepping.py` 142-156, `SOE.computeQDelta`.  The matrix is indexed by positions inside the
loop. -/
noncomputable def computeSOE : PyResult (Matrix (Fin M) (Fin M) ℝ) := do
  let alpha ← (List.range (M - 1)).mapM g.soeAlpha
  let QDelta : ℕ → ℕ → ℝ := (List.range' 1 (M - 1)).foldl
    (fun QD m => soeRow (alpha.getD (m - 1) 0) m QD) (fun _ _ => 0)
  return Matrix.of fun r c => QDelta r c

end TimeStepping

/-! ## `algebraic.py` -/

/-- `algebraic.py` 31-32, `PIC.computeQDelta` (`zeros`, `qdelta/__init__.py` 101-105). -/
def computePIC {M : ℕ} (_Q : Matrix (Fin M) (Fin M) ℝ) : Matrix (Fin M) (Fin M) ℝ := 0

/-- `algebraic.py` 40-41, `Exact.computeQDelta`. -/
def computeExact {M : ℕ} (Q : Matrix (Fin M) (Fin M) ℝ) : Matrix (Fin M) (Fin M) ℝ := Q

/-- The external numerical routines: `scipy.linalg.lu`, `scipy.optimize.fsolve` and
`scipy.optimize.minimize` (Nelder-Mead). `algebraic.py` 49, `diag.py` 48, 242-247, 264. -/
structure ExternalNum where
  /-- `P, L, U = scipy.linalg.lu(A)`. -/
  lu : {n : ℕ} → Matrix (Fin n) (Fin n) ℝ →
    Matrix (Fin n) (Fin n) ℝ × Matrix (Fin n) (Fin n) ℝ × Matrix (Fin n) (Fin n) ℝ
  /-- `scipy.optimize.fsolve(f, x0, xtol=1e-15)`. -/
  fsolve : {n : ℕ} → ((Fin n → ℝ) → Fin n → ℝ) → (Fin n → ℝ) → Fin n → ℝ
  /-- `scipy.optimize.minimize(f, x0, method="Nelder-Mead").x`. -/
  minimize : {n : ℕ} → ((Fin n → ℝ) → ℝ) → (Fin n → ℝ) → Fin n → ℝ

/-- `algebraic.py` 48-50, `LU.computeQDelta`: `_, _, U = spl.lu(Q.T); return U.T`. -/
def computeLU (ext : ExternalNum) {M : ℕ} (Q : Matrix (Fin M) (Fin M) ℝ) :
    Matrix (Fin M) (Fin M) ℝ :=
  (ext.lu Qᵀ).2.2ᵀ

/-- `algebraic.py` 57-58, `LU2.computeQDelta`. -/
def computeLU2 (ext : ExternalNum) {M : ℕ} (Q : Matrix (Fin M) (Fin M) ℝ) :
    Matrix (Fin M) (Fin M) ℝ :=
  Matrix.of fun i j => computeLU ext Q i j * 2

/-- `algebraic.py` 66-67, `QPar.computeQDelta`: `np.diag(np.diag(Q))`. -/
def computeQPar {M : ℕ} (Q : Matrix (Fin M) (Fin M) ℝ) : Matrix (Fin M) (Fin M) ℝ :=
  Matrix.diagonal Q.diag

/-- `algebraic.py` 75-76, `GS.computeQDelta`: `np.tril(Q)`. -/
def computeGS {M : ℕ} (Q : Matrix (Fin M) (Fin M) ℝ) : Matrix (Fin M) (Fin M) ℝ :=
  Matrix.of fun i j => if j ≤ i then Q i j else 0

/-- `algebraic.py` 83-84, `LDU.computeQDelta`: `lduFactorization(Q)[1]`. -/
noncomputable def computeLDU {M : ℕ} (Q : Matrix (Fin M) (Fin M) ℝ) :
    PyResult (Matrix (Fin M) (Fin M) ℝ) := do
  let s ← lduFactorization Q
  return s.D

/-! ## `diag.py` -/

/-- `diag.py` 30-34, `check(k)`. -/
def checkK (k : Option ℤ) : PyResult ℤ :=
  let k := k.getD 1
  if k < 1 then .error .valueError else .ok k

/-- `diag.py` 42-45, `MIN.rho`: largest modulus of the eigenvalues of `I - diag(x) Q`. -/
noncomputable def minRho {M : ℕ} (Q : Matrix (Fin M) (Fin M) ℝ) (x : Fin M → ℝ) : ℝ :=
  sSup {r | ∃ μ : ℂ, ((1 - Matrix.diagonal x * Q).map Complex.ofReal).charpoly.IsRoot μ ∧ r = ‖μ‖}

open Classical in
/-- `np.linalg.inv(A)`. `diag.py` 50. -/
noncomputable def npInv {n : ℕ} (A : Matrix (Fin n) (Fin n) ℝ) :
    PyResult (Matrix (Fin n) (Fin n) ℝ) :=
  if A.det = 0 then .error .linAlgError else .ok A⁻¹

/-- `diag.py` 47-50, `MIN.computeQDelta`. -/
noncomputable def computeMIN (ext : ExternalNum) {M : ℕ} (Q : Matrix (Fin M) (Fin M) ℝ) :
    PyResult (Matrix (Fin M) (Fin M) ℝ) :=
  npInv (Matrix.diagonal (ext.minimize (minRho Q) fun _ => 10))

/-- `diag.py` 82: `table[nodeType][quadType][size]`, `KeyError` if a key is missing. -/
def tableLookup (table : MinCoeffs.Table) (nodeType quadType : String) (size : ℕ) :
    PyResult (List ℚ) :=
  match table.lookup nodeType with
  | none => .error .keyError
  | some t => match t.lookup quadType with
    | none => .error .keyError
    | some t => match t.lookup size with
      | none => .error .keyError
      | some c => .ok c

/-- `diag.py` 78-96, `FromTable.computeQDelta`: a missing key is reported as `NotImplementedError`,
a list of the wrong length as `ValueError`. -/
noncomputable def computeFromTable (table : MinCoeffs.Table) (nNodes : ℕ) (nodeType quadType : String) :
    PyResult (Matrix (Fin nNodes) (Fin nNodes) ℝ) :=
  match tableLookup table nodeType quadType nNodes with
  | .error _ => .error .notImplementedError
  | .ok coeffs =>
    if h : coeffs.length = nNodes then
      .ok (Matrix.diagonal fun i => ((coeffs.get (Fin.cast h.symm i) : ℚ) : ℝ))
    else .error .valueError

/-- `diag.py` 143-144, `MIN_SR_NS.computeQDelta`: `np.diag(nodes)/size`. -/
noncomputable def computeMINSRNS {M : ℕ} (nodes : Fin M → ℝ) : Matrix (Fin M) (Fin M) ℝ :=
  Matrix.of fun r c => Matrix.diagonal nodes r c / M

/-- `diag.py` 223, 250: `quadType in ['LOBATTO', 'RADAU-LEFT']`. -/
def dropsFirst (quadType : String) : Bool := quadType ∈ ["LOBATTO", "RADAU-LEFT"]

/-- `diag.py` 221-226: `QM`, `nodesM` without their first entries when the first node is zero; the
first component is `nCoeffs`. -/
noncomputable def srsSystem {M : ℕ} (quadType : String) (Q : Matrix (Fin M) (Fin M) ℝ)
    (nodes : Fin M → ℝ) : Σ n, Matrix (Fin n) (Fin n) ℝ × (Fin n → ℝ) :=
  if dropsFirst quadType then
    ⟨M - 1, Matrix.of fun i j => Q ⟨i + 1, by omega⟩ ⟨j + 1, by omega⟩,
      fun i => nodes ⟨i + 1, by omega⟩⟩
  else ⟨M, Q, nodes⟩

/-- `diag.py` 233-238, `nilpotency(coeffs)`:
`det((1-z)*I + z*diag(1/coeffs) @ QM) - 1` for `z` in `nodesM`. -/
noncomputable def srsNilpotency {n : ℕ} (QM : Matrix (Fin n) (Fin n) ℝ) (nodesM : Fin n → ℝ)
    (coeffs : Fin n → ℝ) : Fin n → ℝ := fun i =>
  ((1 - nodesM i) • (1 : Matrix (Fin n) (Fin n) ℝ) +
    nodesM i • (Matrix.diagonal (fun j => 1 / coeffs j) * QM)).det - 1

/-- `diag.py` 228-247: the coefficients, without the one of a zero first node.  `a`, `b` are the
parameters of the fit, if any. -/
noncomputable def srsCoeffs (ext : ExternalNum) (M : ℕ) {n : ℕ} (QM : Matrix (Fin n) (Fin n) ℝ)
    (nodesM : Fin n → ℝ) (ab : Option (ℝ × ℝ)) : Fin n → ℝ :=
  if n = 1 then QM.diag
  else
    let coeffs0 : Fin n → ℝ := match ab with
      | none => fun i => nodesM i / M
      | some (a, b) => fun i => a * nodesM i ^ b / M
    ext.fsolve (srsNilpotency QM nodesM) coeffs0

/-- `diag.py` 249-252: `[0.0] + list(v)` when the first node was dropped. -/
def srsRestore (M : ℕ) (quadType : String) (v : Σ n, Fin n → ℝ) : Fin M → ℝ := fun i =>
  if dropsFirst quadType then (if (i : ℕ) = 0 then 0 else atPos v.2 (i - 1))
  else atPos v.2 i

/-- `diag.py` 189-254, `MIN_SR_S.computeCoeffs(M, a, b)`.  (For `M == self.size` the code reuses
`self.coll`, which is the same `Collocation`.) -/
noncomputable def srsComputeCoeffs (ext : ExternalNum) (nodeType quadType : String) (M : ℕ)
    (ab : Option (ℝ × ℝ)) : PyResult ((Fin M → ℝ) × (Fin M → ℝ)) := do
  let collM ← Collocation.new M nodeType quadType
  let sys := srsSystem quadType collM.Q collM.nodes
  let coeffs := srsCoeffs ext M sys.2.1 sys.2.2 ab
  return (srsRestore M quadType ⟨sys.1, coeffs⟩, srsRestore M quadType ⟨sys.1, sys.2.2⟩)

/-- `diag.py` 256-265, `MIN_SR_S.fit(coeffs, nodes)`. -/
noncomputable def srsFit (ext : ExternalNum) {M : ℕ} (coeffs nodes : Fin M → ℝ) : ℝ × ℝ :=
  let sol := ext.minimize (n := 2)
    (fun ab => Real.sqrt (∑ i, (ab 0 * nodes i ^ ab 1 - coeffs i) ^ 2)) fun _ => 1
  (sol 0, sol 1)

/-- `diag.py` 271-274: the incremental loop from `m`, with `left` more sizes after it; the result is
the coefficients of the last size. -/
noncomputable def srsLoop (ext : ExternalNum) (nodeType quadType : String) :
    (left m : ℕ) → Option (ℝ × ℝ) → PyResult (Fin (m + left) → ℝ)
  | 0, m, ab => do
    let r ← srsComputeCoeffs ext nodeType quadType m ab
    return r.1
  | left + 1, m, ab => do
    let (coeffs, nodes) ← srsComputeCoeffs ext nodeType quadType m ab
    let ab' := if m > 1 then some (srsFit ext (fun i => coeffs i * m) nodes) else ab
    let r ← srsLoop ext nodeType quadType left (m + 1) ab'
    return fun i => r (Fin.cast (by omega) i)

/-- `diag.py` 267-275, `MIN_SR_S.computeQDelta`, after `__init__` (`diag.py` 168) built
`Collocation(nNodes, nodeType, quadType)`.  If the loop runs no iteration, `coeffs` is unbound. -/
noncomputable def computeMINSRS (ext : ExternalNum) (M : ℕ) (nodeType quadType : String) :
    PyResult (Matrix (Fin M) (Fin M) ℝ) :=
  let m0 := if dropsFirst quadType then 2 else 1
  if h : m0 ≤ M then do
    let r ← srsLoop ext nodeType quadType (M - m0) m0 none
    return Matrix.diagonal fun i => r (Fin.cast (by omega) i)
  else .error .unboundLocalError

/-- `diag.py` 284-293, `MIN_SR_FLEX.computeQDelta(k)`; the attribute `_QDelta_MIN_SR_S` keeps the
value of `MIN_SR_S.computeQDelta()` (its sharing is modelled in `Model/QDeltaCache.lean`). -/
noncomputable def computeMINSRFLEX (ext : ExternalNum) (M : ℕ) (nodeType quadType : String)
    (collNodes : Fin M → ℝ) (k : Option ℤ) : PyResult (Matrix (Fin M) (Fin M) ℝ) := do
  let k ← checkK k
  if k ≤ M then return Matrix.diagonal fun i => collNodes i / k
  else computeMINSRS ext M nodeType quadType

/-- `diag.py` 302-304, `Jumper.computeQDelta(k)`. -/
noncomputable def computeJumper {M : ℕ} (nodes : Fin M → ℝ) (k : Option ℤ) :
    PyResult (Matrix (Fin M) (Fin M) ℝ) := do
  let k ← checkK k
  return Matrix.of fun r c => Matrix.diagonal nodes r c / (2 * k)

/-- `diag.py` 313-316, `FlexJumper.computeQDelta(k)`. -/
noncomputable def computeFlexJumper {M : ℕ} (nodes : Fin M → ℝ) (k : Option ℤ) :
    PyResult (Matrix (Fin M) (Fin M) ℝ) := do
  let k ← checkK k
  let divider : ℤ := if k = 1 then 1 else 2 * (k - 1)
  return Matrix.of fun r c => Matrix.diagonal nodes r c / divider

/-- `diag.py` 325-326, `DNODES.computeQDelta`; `divider` is the class attribute (1 to 5,
`diag.py` 322, 331, 337, 343, 349). -/
noncomputable def computeDNODES {M : ℕ} (divider : ℕ) (nodes : Fin M → ℝ) :
    Matrix (Fin M) (Fin M) ℝ :=
  Matrix.of fun r c => Matrix.diagonal nodes r c / divider

end QMat
