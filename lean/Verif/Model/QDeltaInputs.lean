import Verif.Model.QDeltaGen

/-!
# Model of the arrays given to the constructors of `QDeltaGenerator` classes

`np.asarray` of a float array is the array itself (`qdelta/__init__.py` 84, `timestepping.py` 40, 48,
`diag.py` 128), also of the arrays `qGen.nodes` and `qGen.Q` of a `qGen` parameter: the object reads,
at each computation, what the array contains at that time.  `TimeStepping.deltas` is a copy
(`timestepping.py` 41).
-/

namespace QMat

open Matrix

/-- An object that keeps a reference to an array of content `α`: what `computeQDelta(k)` and `dTau`
return when the array contains a given value. `qdelta/__init__.py` 83-174. -/
structure SharedGen (α : Type) (n : ℕ) where
  kDependent : Bool
  compute : α → Option ℤ → PyResult (Matrix (Fin n) (Fin n) ℝ)
  dTau : α → Fin n → ℝ

/-- A class built on `QDeltaGenerator.__init__` (`qdelta/__init__.py` 83-85): `self.Q` is the given
array. -/
def sharedQ {n : ℕ} (compute : Matrix (Fin n) (Fin n) ℝ → PyResult (Matrix (Fin n) (Fin n) ℝ)) :
    SharedGen (Matrix (Fin n) (Fin n) ℝ) n where
  kDependent := false
  compute Q _ := compute Q
  dTau _ := 0

/-- A class built on `MIN_SR_NS.__init__` (`diag.py` 127-128): `self.nodes` is the given array. -/
def sharedNodes {n : ℕ} (kDependent : Bool)
    (compute : (Fin n → ℝ) → Option ℤ → PyResult (Matrix (Fin n) (Fin n) ℝ)) :
    SharedGen (Fin n → ℝ) n where
  kDependent := kDependent
  compute := compute
  dTau _ := 0

/-- A subclass of `TimeStepping` (`timestepping.py` 39-52): `self.nodes` is the given array,
`self.deltas` was computed by the constructor. -/
noncomputable def sharedTime {n : ℕ} (compute : TimeStepping n → PyResult (Matrix (Fin n) (Fin n) ℝ))
    (dTau : TimeStepping n → Fin n → ℝ) (nodes : Fin n → ℝ) (tLeft : ℝ) :
    PyResult (SharedGen (Fin n → ℝ) n) := do
  let g ← TimeStepping.new nodes tLeft
  return { kDependent := false
           compute := fun v _ => compute { g with nodes := v }
           dTau := fun v => dTau { g with nodes := v } }

/-- State: content of the array, and the results stored in `_QDelta`. `qdelta/__init__.py` 139-146. -/
structure SharedState (α : Type) (n : ℕ) where
  input : α
  cache : List (Option ℤ × Matrix (Fin n) (Fin n) ℝ)

/-- What a caller does. Callers of `qdelta/__init__.py` 123-211. -/
inductive SharedAction (α : Type)
  | getQDelta (k : Option ℤ)
  | write (v : α)

namespace SharedGen

variable {α : Type} {n : ℕ} (g : SharedGen α n)

/-- Key of the dictionary; an object whose coefficients do not depend on `k` stores one matrix.
`qdelta/__init__.py` 140, 144, 146. -/
def key (k : Option ℤ) : Option ℤ := if g.kDependent then k else none

/-- `getQDelta(k)` (with a copy): returned matrix and new state. `qdelta/__init__.py` 139-149; nothing
is stored when `computeQDelta` raises. -/
def getQDelta (k : Option ℤ) (s : SharedState α n) :
    PyResult (Matrix (Fin n) (Fin n) ℝ) × SharedState α n :=
  match s.cache.lookup (g.key k) with
  | some A => (.ok A, s)
  | none =>
    match g.compute s.input k with
    | .ok A => (.ok A, { s with cache := (g.key k, A) :: s.cache })
    | .error e => (.error e, s)

/-- One action. Callers of `qdelta/__init__.py` 123-211. -/
def act (s : SharedState α n) : SharedAction α → SharedState α n
  | .getQDelta k => (g.getQDelta k s).2
  | .write v => { s with input := v }

/-- The state after a list of actions on a new object built with an array of content `v`.
Callers of `qdelta/__init__.py` 123-211. -/
def history (v : α) (h : List (SharedAction α)) : SharedState α n := h.foldl g.act ⟨v, []⟩

end SharedGen

end QMat
