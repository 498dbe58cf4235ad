import Verif.Model.QDelta

/-!
# Model of `TimeStepping.__init__` for nodes given as integers (`qmat/qdelta/timestepping.py` 39-52)

`np.asarray(nodes)` of a list of Python integers is an integer array, and so is its copy `deltas`:
what is stored into it is truncated.  Integers are unbounded here (NumPy's have 64 bits).
-/

namespace QMat

/-- Conversion of a float stored into an integer array: truncation toward zero.
`timestepping.py` 42, `deltas[0] = ...`. -/
noncomputable def truncInt (x : ℝ) : ℤ := if 0 ≤ x then ⌊x⌋ else ⌈x⌉

/-- `timestepping.py` 39-52, `TimeStepping.__init__` with an integer array of nodes and a float
`tLeft`: `deltas` is an integer array, so that `deltas[0] = nodes[0] - tLeft` is truncated, and the
differences of the other nodes are integers.  All uses of `nodes` and `deltas` in the methods of the
subclasses are in float arithmetic (`QDelta` is a float array, divisions are true divisions), so the
integers are converted here. -/
noncomputable def TimeStepping.newInt {M : ℕ} (nodes : Fin M → ℤ) (tLeft : ℝ := 0) :
    PyResult (TimeStepping M) :=
  if 0 < M then
    .ok { nodes := fun i => (nodes i : ℝ)
          deltas := fun i =>
            if (i : ℕ) = 0 then (truncInt (nodes i - tLeft) : ℝ)
            else ((nodes i - nodes ⟨i - 1, lt_of_le_of_lt (Nat.sub_le _ _) i.isLt⟩ : ℤ) : ℝ)
          tLeft := tLeft }
  else .error .indexError

end QMat
