import Verif.Model.QCoeff
import Verif.Model.Quad
import Mathlib.Data.Fin.Tuple.Basic

/-!
# Model of `qmat/qcoeff/butcher.py`, the `RK` base class
-/

namespace QMat

open Matrix

/-- The attributes `A`, `b`, `c`, `b2` of an `RK` object (`butcher.py` 37-44); `b2` has its own size,
which padding does not change. -/
structure RK where
  s : ℕ
  A : Matrix (Fin s) (Fin s) ℝ
  b : Fin s → ℝ
  c : Fin s → ℝ
  b2 : Option (Σ k, Fin k → ℝ)

namespace RK

/-- `butcher.py` 54-56: a zero row and column before `A`. -/
def padLeftA {s : ℕ} (A : Matrix (Fin s) (Fin s) ℝ) : Matrix (Fin (s + 1)) (Fin (s + 1)) ℝ :=
  Matrix.of fun i => Fin.cases 0 (fun i' => Fin.cons 0 (A i')) i

/-- `butcher.py` 62-66: a zero column and the row of weights after `A`. -/
def padRightA {s : ℕ} (A : Matrix (Fin s) (Fin s) ℝ) (b : Fin s → ℝ) :
    Matrix (Fin (s + 1)) (Fin (s + 1)) ℝ :=
  Matrix.of fun i => Fin.lastCases (Fin.snoc b 0) (fun i' => Fin.snoc (A i') 0) i

/-- `butcher.py` 50-56: padding with a node at `t = 0`. -/
def padLeft (g : RK) : RK where
  s := g.s + 1
  c := Fin.cons 0 g.c
  b := Fin.cons 0 g.b
  A := padLeftA g.A
  b2 := g.b2

/-- `butcher.py` 58-66: padding with a node at `t = 1`; the last row of the new matrix is the new `b`. -/
def padRight (g : RK) : RK where
  s := g.s + 1
  c := Fin.snoc g.c 1
  b := Fin.snoc g.b 0
  A := padRightA g.A g.b
  b2 := g.b2

/-- `butcher.py` 46-68, `RK.__init__(padding)`; `None` and the empty string are no padding. -/
def init (g : RK) (padding : Option String := none) : PyResult RK :=
  match padding with
  | none => .ok g
  | some p =>
    if p = "" then .ok g
    else if p ∉ ["LEFT", "RIGHT", "BOTH"] then .error .assertionError
    else
      let g := if p ∈ ["LEFT", "BOTH"] then g.padLeft else g
      let g := if p ∈ ["RIGHT", "BOTH"] then g.padRight else g
      .ok g

/-- `butcher.py` 84-92, `hCoeffs`: the base-class coefficients, and the last unit vector if their
computation raises an `AssertionError`; `hCoeffs[-1]` of an empty array is an `IndexError`. -/
noncomputable def hCoeffs (g : RK) : PyResult (Fin g.s → ℝ) :=
  match qgenHCoeffs g.c with
  | .error .assertionError =>
    if h : 0 < g.s then .ok (Function.update 0 ⟨g.s - 1, by omega⟩ 1) else .error .indexError
  | r => r

/-- `butcher.py` 70-92 and `qcoeff/__init__.py` 71-78: an `RK` object as a `QGenerator`. -/
noncomputable def toQGenerator (g : RK) : QGenerator g.s where
  nodes := g.c
  weights := g.b
  Q := g.A
  S := .ok (qgenS g.A)
  hCoeffs := g.hCoeffs
  weightsEmbedded := match g.b2 with
    | none => .error .notImplementedError
    | some b2 => .ok b2

end RK

/-! ## Tables -/

/-- A registered class: its name, aliases, table (entries `a + b√d`) and declared orders.
`butcher.py` 37-44 and 121-1017, the class bodies. -/
structure RKTable where
  name : String
  aliases : List String
  d : ℕ
  A : List (List (Quad d))
  b : List (Quad d)
  c : List (Quad d)
  b2 : Option (List (Quad d))
  order : ℕ
  orderEmbedded : ℕ

namespace RKTable

/-- `butcher.py` 99-118, `checkAndStore`: the shape checks (`storeClass` is modelled with the
registries). -/
def shapesOk (T : RKTable) : Bool :=
  T.b.length = T.c.length && T.A.length = T.c.length && T.A.all fun row => row.length = T.c.length

/-- The arrays of the class, as an unpadded `RK` object. `butcher.py` 99-118, `checkAndStore`. -/
noncomputable def toRK (T : RKTable) : RK where
  s := T.c.length
  A := Matrix.of fun i j => ((T.A.getD i []).getD j 0).toReal
  b := fun i => (T.b.getD i 0).toReal
  c := fun i => (T.c.getD i 0).toReal
  b2 := T.b2.map fun l => ⟨l.length, fun i => (l.getD i 0).toReal⟩

end RKTable

end QMat
