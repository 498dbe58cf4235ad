import Mathlib.Data.Real.Basic
import Mathlib.Data.Finset.Sort
import Mathlib.Data.Fintype.BigOperators
import Mathlib.Data.Finset.Max
import Mathlib.Data.Fintype.Lattice

/-!
# Python / numpy vocabulary used by the model

Python exceptions are values of `PyErr`; a function that may raise returns `Except PyErr α`.
Arrays of size `n` are functions `Fin n → K`.
-/

namespace QMat

/-- The Python exception classes raised by the modelled code.
`nodes.py` 58, `lagrange.py` 198, `butcher.py` 79 and the other `raise` and `assert` statements. -/
inductive PyErr
  | assertionError
  | valueError
  | notImplementedError
  | typeError
  | keyError
  | attributeError
  | indexError
  | linAlgError
  | zeroDivisionError
  | unboundLocalError
  | nameError
  | exception
  deriving DecidableEq, Repr

/-- Result of a Python call: a value or a raised exception. Outcome of any call, e.g. `nodes.py` 67-111. -/
abbrev PyResult (α : Type*) := Except PyErr α

/-- `s.startswith(p)` on Python strings. `nodes.py` 212, `collocation.py` 108. -/
def pyStartsWith (s p : String) : Bool := p.toList.isPrefixOf s.toList

/-- `s.endswith(p)` on Python strings. `nodes.py` 213, `utils/__init__.py` 72. -/
def pyEndsWith (s p : String) : Bool := p.toList.isSuffixOf s.toList

/-- Number of values returned by `np.unique(points)`. `lagrange.py` 169-170. -/
noncomputable def npUniqueSize {n : ℕ} (points : Fin n → ℝ) : ℕ :=
  (Finset.univ.image points).card

/-- `np.unique(points)`: the distinct values in increasing order. `lagrange.py` 169, 260. -/
noncomputable def npUnique {n : ℕ} (points : Fin n → ℝ) : Fin (npUniqueSize points) → ℝ :=
  (Finset.univ.image points).orderEmbOfFin rfl

/-- `np.sign(x)`. `lagrange.py` 191, 206. -/
noncomputable def npSign (x : ℝ) : ℝ := if 0 < x then 1 else if x < 0 then -1 else 0

/-- `np.max(f)`; numpy raises `ValueError` on an empty array. `lagrange.py` 196, 205, 230. -/
noncomputable def npMax {n : ℕ} (f : Fin n → ℝ) : PyResult ℝ :=
  if h : 0 < n then
    .ok (Finset.univ.sup' ⟨⟨0, h⟩, Finset.mem_univ _⟩ f)
  else .error .valueError

/-- `np.min(f)`; numpy raises `ValueError` on an empty array. `lagrange.py` 205. -/
noncomputable def npMin {n : ℕ} (f : Fin n → ℝ) : PyResult ℝ :=
  if h : 0 < n then
    .ok (Finset.univ.inf' ⟨⟨0, h⟩, Finset.mem_univ _⟩ f)
  else .error .valueError

/-- `np.argmin(f)`: the first index of the minimum; numpy raises `ValueError` on an empty array.
`lagrange.py` 194. -/
noncomputable def npArgmin {n : ℕ} (f : Fin n → ℝ) : PyResult (Fin n) :=
  if h : 0 < n then
    .ok ((Finset.univ.filter fun i => ∀ j, f i ≤ f j).min' (by
      have : Nonempty (Fin n) := ⟨⟨0, h⟩⟩
      obtain ⟨i, hi⟩ := Finite.exists_min f
      exact ⟨i, by simpa using hi⟩))
  else .error .valueError

/-- numpy's scalar closeness test `|a - b| ≤ atol + rtol * |b|` with the default `rtol=1e-5`,
`atol=1e-8` of `np.isclose`/`np.allclose`. `collocation.py` 59-60, `lagrange.py` 587. -/
def npIsClose (a b : ℝ) : Prop := |a - b| ≤ 1 / 10 ^ 8 + 1 / 10 ^ 5 * |b|

/-- `np.allclose(a, b)` for arrays of the same size. `lagrange.py` 587. -/
def npAllClose {n : ℕ} (a b : Fin n → ℝ) : Prop := ∀ i, npIsClose (a i) (b i)

end QMat
