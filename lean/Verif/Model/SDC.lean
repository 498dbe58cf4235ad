import Verif.Model.OrderSDC

/-!
# Model of `qmat/utils/sdc.py`
-/

namespace QMat

open Matrix

/-- The `QDelta` argument of `solveDahlquistSDC` after `np.asarray` (`sdc.py` 45): a 2D or a 3D array
with its shape, or an array of another number of dimensions. -/
inductive SDCQDelta
  | mat (r c : ℕ) (A : Matrix (Fin r) (Fin c) ℝ)
  | stack (s r c : ℕ) (A : Fin s → Matrix (Fin r) (Fin c) ℝ)
  | other

/-- `sdc.py` 45-50: the shape checks, and the repetition of a 2D array over the sweeps; sweep `k`
reads the `k`-th matrix.  `np.repeat` with a negative number is a `ValueError`.  (`nSweeps` of the 3D
case is the first dimension, hence not negative.) -/
noncomputable def sdcQDelta (M : ℕ) (nSweeps : ℤ) : SDCQDelta → PyResult (ℕ → Matrix (Fin M) (Fin M) ℝ)
  | .stack s r c A =>
      if h : (s : ℤ) = nSweeps ∧ r = M ∧ c = M then
        .ok fun k => if hk : k < s then
          (A ⟨k, hk⟩).submatrix (Fin.cast h.2.1.symm) (Fin.cast h.2.2.symm) else 0
      else .error .assertionError
  | .mat r c A =>
      if h : r = M ∧ c = M then
        if nSweeps < 0 then .error .valueError
        else .ok fun _ => A.submatrix (Fin.cast h.1.symm) (Fin.cast h.2.symm)
      else .error .assertionError
  | .other => .error .assertionError

/-- The monitor arrays, indexed by sweep, step and node; `none` for a key that was not asked.
`sdc.py` 58-64. -/
structure SDCMonitors (M : ℕ) where
  residuals : Option (ℕ → ℕ → Fin M → ℂ)
  errors : Option (ℕ → ℕ → Fin M → ℂ)

/-- `arr[k, i] = v`. `sdc.py` 73-75, 84-86. -/
def npSet2 {α : Type} (arr : ℕ → ℕ → α) (k i : ℕ) (v : α) : ℕ → ℕ → α :=
  Function.update arr k (Function.update (arr k) i v)

/-- `sdc.py` 59-64: the dictionary of monitors built from the keys.  `monitors` is a list of keys; a
Python string would be iterated over its characters, i.e. is the list of its one-character strings. -/
def setupMonitors (M : ℕ) : List String → PyResult (SDCMonitors M)
  | [] => .ok ⟨none, none⟩
  | key :: keys => do
    if ¬ (key = "residuals" ∨ key = "errors") then throw .assertionError
    let m ← setupMonitors M keys
    if key = "residuals" then return { m with residuals := some fun _ _ _ => 0 }
    else return { m with errors := some fun _ _ _ => 0 }

/-- The quantities that stay fixed in the loops of `solveDahlquistSDC` (`sdc.py` 40-53). -/
structure SDCData (M : ℕ) where
  lam : ℂ
  u0 : ℂ
  dt : ℝ
  Q : Matrix (Fin M) (Fin M) ℝ
  QDelta : ℕ → Matrix (Fin M) (Fin M) ℝ
  /-- `nodes = Q.sum(axis=1)` -/
  nodes : Fin M → ℝ
  /-- `times = np.linspace(0, tEnd, nSteps+1)` -/
  times : ℕ → ℝ
  weights : Option (Σ k, Fin k → ℝ)

namespace SDCData

variable {M : ℕ} (d : SDCData M)

/-- `sdc.py` 53: `P[k]`. -/
noncomputable def P (k : ℕ) : Matrix (Fin M) (Fin M) ℂ :=
  1 - (d.lam * d.dt) • (d.QDelta k).map Complex.ofReal

/-- `sdc.py` 71-75 and 82-86: the monitoring of `uNodes`, with `k` the position in the first
dimension and `ui` the value `uNum[i]`. -/
noncomputable def record (k i : ℕ) (ui : ℂ) (uNodes : Fin M → ℂ) (mon : SDCMonitors M) : SDCMonitors M where
  residuals := mon.residuals.map fun r => npSet2 r k i fun j =>
    ui + (((d.lam * d.dt) • d.Q.map Complex.ofReal) *ᵥ uNodes) j - uNodes j
  errors := mon.errors.map fun r => npSet2 r k i fun j =>
    uNodes j - d.u0 * Complex.exp (d.lam * (d.times i + d.dt * d.nodes j : ℝ))

/-- `sdc.py` 77-86: one sweep. -/
noncomputable def sweep (i : ℕ) (ui : ℂ) (s : (Fin M → ℂ) × SDCMonitors M) (k : ℕ) :
    PyResult ((Fin M → ℂ) × SDCMonitors M) := do
  let b : Fin M → ℂ := fun j =>
    ui + (((d.lam * d.dt) • (d.Q - d.QDelta k).map Complex.ofReal) *ᵥ s.1) j
  let uNodes ← npSolve (d.P k) b
  return (uNodes, d.record (k + 1) i ui uNodes s.2)

/-- `sdc.py` 88-91: the step update.  `uNodes[-1]` of an empty array is an `IndexError`. -/
noncomputable def update (ui : ℂ) (uNodes : Fin M → ℂ) : PyResult ℂ :=
  match d.weights with
  | none => if h : 0 < M then .ok (uNodes ⟨M - 1, by omega⟩) else .error .indexError
  | some w => do
    let x ← npDot w uNodes
    return ui + d.lam * d.dt * x

/-- `sdc.py` 66-91: one time step; the state is the array `uNum` and the monitors. -/
noncomputable def step (nSweeps : ℕ) (s : (ℕ → ℂ) × SDCMonitors M) (i : ℕ) :
    PyResult ((ℕ → ℂ) × SDCMonitors M) := do
  let uNodes : Fin M → ℂ := fun _ => s.1 i
  let (uNodes, mon) ← (List.range nSweeps).foldlM (d.sweep i (s.1 i))
    (uNodes, d.record 0 i (s.1 i) uNodes s.2)
  let u ← d.update (s.1 i) uNodes
  return (Function.update s.1 (i + 1) u, mon)

end SDCData

/-- What `solveDahlquistSDC` returns: `uNum`, with the monitors if any. `sdc.py` 93-96. -/
structure SDCOut (M : ℕ) where
  uNum : List ℂ
  monitors : Option (SDCMonitors M)

/-- `sdc.py` 9-96, `solveDahlquistSDC`, for a square `Q`.  `tEnd/0` is a `ZeroDivisionError`,
`np.linspace` with a negative number of points a `ValueError`, `uNum[0]` of an empty array an
`IndexError`.  The monitor arrays are indexed by position (`k ≤ nSweeps`, `i < nSteps`). -/
noncomputable def solveDahlquistSDC {M : ℕ} (lam u0 : ℂ) (tEnd : ℝ) (nSteps nSweeps : ℤ)
    (Q : Matrix (Fin M) (Fin M) ℝ) (QDelta : SDCQDelta) (weights : Option (Σ k, Fin k → ℝ) := none)
    (monitors : List String := []) : PyResult (SDCOut M) := do
  let nodes : Fin M → ℝ := fun i => ∑ j, Q i j
  if nSteps = 0 then throw .zeroDivisionError
  let dt : ℝ := tEnd / nSteps
  if nSteps + 1 < 0 then throw .valueError
  let times : ℕ → ℝ := fun i => i * (tEnd / nSteps)
  let QDelta ← sdcQDelta M nSweeps QDelta
  if nSteps + 1 = 0 then throw .indexError
  let mon ← setupMonitors M monitors
  let d : SDCData M := ⟨lam, u0, dt, Q, QDelta, nodes, times, weights⟩
  let (uNum, mon) ← (List.range nSteps.toNat).foldlM (d.step nSweeps.toNat)
    (Function.update (fun _ => 0) 0 u0, mon)
  return { uNum := (List.range (nSteps.toNat + 1)).map uNum
           monitors := if monitors = [] then none else some mon }

/-- `sdc.py` 99-139, `errorDahlquistSDC`, with `uNum` computed (`uNum=None`) or given. -/
noncomputable def errorDahlquistSDC {M : ℕ} (lam u0 : ℂ) (tEnd : ℝ) (nSteps nSweeps : ℤ)
    (Q : Matrix (Fin M) (Fin M) ℝ) (QDelta : SDCQDelta) (weights : Option (Σ k, Fin k → ℝ) := none)
    (uNum : Option (List ℂ) := none) : PyResult ℝ := do
  let uNum ← match uNum with
    | none => do
      let out ← solveDahlquistSDC lam u0 tEnd nSteps nSweeps Q QDelta weights
      pure out.uNum
    | some u => pure u
  errorInf uNum nSteps fun i => u0 * Complex.exp (lam * (i * (tEnd / nSteps) : ℝ))

/-! ## `getOrderSDC` -/

/-- Whether the tests that guard a bonus are met. `sdc.py` 187-315. -/
def OrderBonus.applies (b : OrderBonus) (nNodes : ℕ) (nodeType quadType : String) (nSweeps : ℤ)
    (qDelta stepUpdate : String) : Bool :=
  stepUpdate = b.stepUpdate && qDelta = b.qDelta && nSweeps = b.nSweeps && nNodes = b.nNodes &&
    (b.nodeTypes = [] || nodeType ∈ b.nodeTypes) && (b.quadTypes = [] || quadType ∈ b.quadTypes)

/-- `sdc.py` 166-183: the order before the special cases, from the number of sweeps, the type and the
step update; `maxOrder = coll.order`. -/
def baseOrderSDC (maxOrder : ℕ) (nSweeps : ℤ) (qDelta stepUpdate : String) : ℤ :=
  let order : ℤ := 0
  let order := if nSweeps > 0 then
      (if qDelta ∈ ["TRAPAR", "TRAP"] then order + 2 else order + 1) + (nSweeps - 1)
    else order
  let order := if stepUpdate = "QUADRATURE" then order + 1 else order
  min maxOrder order

/-- `sdc.py` 142-317, `getOrderSDC(coll, nSweeps, qDelta, stepUpdate)` for a collocation object with
`nNodes` nodes of the given types and the given order (a collocation with unknown types cannot be
built, so `coll.order` is never `None`). -/
def getOrderSDC (nNodes : ℕ) (nodeType quadType : String) (maxOrder : ℕ) (nSweeps : ℤ)
    (qDelta stepUpdate : String) : ℤ :=
  orderBonuses.foldl (fun order b =>
    if b.applies nNodes nodeType quadType nSweeps qDelta stepUpdate then order + b.bonus else order)
    (baseOrderSDC maxOrder nSweeps qDelta stepUpdate)

end QMat
