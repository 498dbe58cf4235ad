import Verif.Model.Py
import Mathlib.Analysis.Matrix.Spectrum
import Mathlib.Data.Fin.Tuple.Sort

/-!
# Model of `qmat/nodes.py`

Arrays of recurrence coefficients of length `n` are functions `ℕ → ℝ` that are only read at indices
`< n`; the slice `a[:-1]` is the same function with length `n - 1`.
-/

namespace QMat

/-- `nodes.py` 19, `NODE_TYPES`. -/
def NODE_TYPES : List String := ["EQUID", "LEGENDRE", "CHEBY-1", "CHEBY-2", "CHEBY-3", "CHEBY-4"]

/-- `nodes.py` 22, `QUAD_TYPES`. -/
def QUAD_TYPES : List String := ["GAUSS", "RADAU-LEFT", "RADAU-RIGHT", "LOBATTO"]

/-- `nodes.py` 60-64: the attributes of a `NodesGenerator`. -/
structure NodesGenerator where
  nodeType : String
  quadType : String

/-- Entry `i` of `np.linspace(a, b, num)`. `nodes.py` 92-98. -/
noncomputable def npLinspace (a b : ℝ) (num : ℕ) (i : ℕ) : ℝ := a + i * ((b - a) / (num - 1))

/-- The symmetric tridiagonal matrix with diagonal `d` and off-diagonal entries `e k` between the
rows `k` and `k + 1`. `nodes.py` 102, the matrix of `eigh_tridiagonal`. -/
def tridiagonal (n : ℕ) (d e : ℕ → ℝ) : Matrix (Fin n) (Fin n) ℝ :=
  Matrix.of fun i j =>
    if i = j then d i else if (i : ℕ) + 1 = j then e i else if (j : ℕ) + 1 = i then e j else 0

theorem tridiagonal_isHermitian (n : ℕ) (d e : ℕ → ℝ) : (tridiagonal n d e).IsHermitian := by
  ext i j
  simp only [Matrix.conjTranspose_apply, star_trivial, tridiagonal, Matrix.of_apply]
  by_cases h1 : i = j
  · subst h1; simp
  · rw [if_neg h1, if_neg (Ne.symm h1)]
    by_cases h2 : (i : ℕ) + 1 = j
    · have : ¬ (j : ℕ) + 1 = i := by omega
      simp [h2, this]
    · by_cases h3 : (j : ℕ) + 1 = i <;> simp [h2, h3]

/-- `scipy.linalg.eigh_tridiagonal(d, e)[0]`: the eigenvalues with multiplicity of the symmetric
tridiagonal matrix (external routine, modelled by its mathematical meaning). `nodes.py` 102. -/
noncomputable def eighTridiagonal (n : ℕ) (d e : ℕ → ℝ) : Fin n → ℝ :=
  (tridiagonal_isHermitian n d e).eigenvalues

/-- `nodes.sort()`: in-place sort in increasing order. `nodes.py` 103. -/
noncomputable def npSort {n : ℕ} (f : Fin n → ℝ) : Fin n → ℝ := f ∘ Tuple.sort f

namespace NodesGenerator

/-- `nodes.py` 54-64: constructor. -/
def new (nodeType : String := "LEGENDRE") (quadType : String := "LOBATTO") :
    PyResult NodesGenerator :=
  if nodeType ∉ NODE_TYPES then .error .valueError
  else if quadType ∉ QUAD_TYPES then .error .valueError
  else .ok ⟨nodeType, quadType⟩

/-- The assignment `beta[0] = ...` (`nodes.py` 134, 138, 144, 147, ...) raises `IndexError` on an
empty array. -/
def checkNonEmpty {α : Type} (num : ℕ) (x : α) : PyResult α :=
  if num = 0 then .error .indexError else .ok x

/-- `nodes.py` 114-155: analytic three-term recurrence coefficients `alpha`, `beta`. -/
noncomputable def getOrthogPolyCoefficients (g : NodesGenerator) (num : ℕ) :
    PyResult ((ℕ → ℝ) × (ℕ → ℝ)) :=
  if g.nodeType = "LEGENDRE" then
    checkNonEmpty num (fun _ => 0, fun k => if k = 0 then 2 else (k:ℝ) ^ 2 / (4 * (k:ℝ) ^ 2 - 1))
  else if g.nodeType = "CHEBY-1" then
    checkNonEmpty num (fun _ => 0,
      fun k => if k = 1 then 0.5 else if k = 0 then Real.pi else 0.25)
  else if g.nodeType = "CHEBY-2" then
    checkNonEmpty num (fun _ => 0, fun k => if k = 0 then Real.pi / 2 else 0.25)
  else if g.nodeType = "CHEBY-3" then
    checkNonEmpty num (fun k => if k = 0 then 0.5 else 0, fun k => if k = 0 then Real.pi else 0.25)
  else if g.nodeType = "CHEBY-4" then
    checkNonEmpty num (fun k => if k = 0 then -0.5 else 0,
      fun k => if k = 0 then Real.pi else 0.25)
  else .error .unboundLocalError

/-- `nodes.py` 182-187: loop body of `evalOrthogPoly` on the state `(pi[0], pi[1], pi[2])`. -/
def orthogPolyStep (t : ℝ) (s : ℝ × ℝ × ℝ) (ab : ℝ × ℝ) : ℝ × ℝ × ℝ :=
  let p2 := s.2.2 * (t - ab.1)
  let p0 := s.1 * ab.2
  let p2 := p2 - p0
  (s.2.1, p2, p2)

/-- `nodes.py` 158-188, `evalOrthogPoly(t, alpha, beta)` for a scalar `t` and coefficient arrays of
length `m` (arrays of `t` are treated entry by entry). -/
def evalOrthogPoly (t : ℝ) (alpha beta : ℕ → ℝ) (m : ℕ) : ℝ × ℝ :=
  let s := ((List.range m).map fun j => (alpha j, beta j)).foldl (orthogPolyStep t) (0, 1, 1)
  (s.1, s.2.1)

/-- `np.linalg.solve([[a11, a12], [a21, a22]], [f1, f2])`; singular matrices raise. `nodes.py` 220. -/
noncomputable def npSolve2 (a11 a12 a21 a22 f1 f2 : ℝ) : PyResult (ℝ × ℝ) :=
  if a11 * a22 - a12 * a21 = 0 then .error .linAlgError
  else .ok ((f1 * a22 - a12 * f2) / (a11 * a22 - a12 * a21),
    (a11 * f2 - f1 * a21) / (a11 * a22 - a12 * a21))

/-- `nodes.py` 191-221: recurrence coefficients of the Jacobi matrix.  A zero divisor `b2` gives an
infinite coefficient, which `eigh_tridiagonal` rejects with `ValueError`: raised here. -/
noncomputable def getTridiagCoefficients (g : NodesGenerator) (nNodes : ℕ) :
    PyResult ((ℕ → ℝ) × (ℕ → ℝ)) := do
  let (alpha, beta) ← g.getOrthogPolyCoefficients nNodes
  if pyStartsWith g.quadType "RADAU" then
    let b : ℝ := if pyEndsWith g.quadType "LEFT" then -1 else 1
    let (b1, b2) := evalOrthogPoly b alpha beta (nNodes - 1)
    if b2 = 0 then .error .valueError
    else return (Function.update alpha (nNodes - 1) (b - beta (nNodes - 1) * b1 / b2), beta)
  else if g.quadType = "LOBATTO" then
    let a : ℝ := -1
    let b : ℝ := 1
    let (a2, a1) := evalOrthogPoly a alpha beta (nNodes - 1)
    let (b2, b1) := evalOrthogPoly b alpha beta (nNodes - 1)
    let (al, be) ← npSolve2 a1 a2 b1 b2 (a * a1) (b * b1)
    return (Function.update alpha (nNodes - 1) al, Function.update beta (nNodes - 1) be)
  else return (alpha, beta)

open Classical in
/-- `nodes.py` 67-111, `getNodes(nNodes)`.  A negative entry of `beta[1:]` gives a `nan`, which
`eigh_tridiagonal` rejects with `ValueError`. -/
noncomputable def getNodes (g : NodesGenerator) (nNodes : ℕ) : PyResult (Fin nNodes → ℝ) :=
  if (g.quadType = "LOBATTO" ∨ g.quadType = "RADAU-LEFT") ∧ nNodes < 2 then .error .valueError
  else if h : nNodes < 1 then .error .valueError
  else if g.nodeType = "EQUID" ∧ g.quadType = "GAUSS" then
    .ok fun i => npLinspace (-1) 1 (nNodes + 2) (i + 1)
  else if g.nodeType = "EQUID" ∧ g.quadType = "LOBATTO" then
    .ok fun i => npLinspace (-1) 1 nNodes i
  else if g.nodeType = "EQUID" ∧ g.quadType = "RADAU-RIGHT" then
    .ok fun i => npLinspace (-1) 1 (nNodes + 1) (i + 1)
  else if g.nodeType = "EQUID" ∧ g.quadType = "RADAU-LEFT" then
    .ok fun i => npLinspace (-1) 1 (nNodes + 1) i
  else do
    let (alpha, beta) ← g.getTridiagCoefficients nNodes
    if ∃ k, 1 ≤ k ∧ k < nNodes ∧ beta k < 0 then .error .valueError
    else
      let nodes := npSort (eighTridiagonal nNodes alpha fun k => Real.sqrt (beta (k + 1)))
      let nodes := if g.quadType = "LOBATTO" ∨ g.quadType = "RADAU-RIGHT" then
        Function.update nodes ⟨nNodes - 1, by omega⟩ 1 else nodes
      let nodes := if g.quadType = "LOBATTO" ∨ g.quadType = "RADAU-LEFT" then
        Function.update nodes ⟨0, by omega⟩ (-1) else nodes
      return nodes

/-- `nodes.py` 67-111 for an arbitrary Python integer; negative numbers fail the checks of lines
82-87 like 0 does. -/
noncomputable def getNodesInt (g : NodesGenerator) (nNodes : ℤ) : PyResult (List ℝ) :=
  if nNodes < 0 then .error .valueError
  else (g.getNodes nNodes.toNat).map List.ofFn

end NodesGenerator

end QMat
