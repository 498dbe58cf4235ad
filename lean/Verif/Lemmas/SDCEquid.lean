import Verif.Lemmas.SDCRat
import Verif.Model.SDC

/-!
# Exact orders of SDC with equidistant nodes: computations in rational arithmetic
-/

namespace QMat

open SDCRat

/-- Entries of the matrices of the five types, from rational nodes. -/
def schemeQ (name : String) (x : List ℚ) : ℕ → ℕ → ℚ :=
  if name = "BE" then qBE x else if name = "FE" then qFE x else if name = "TRAP" then qTRAP x
  else if name = "BEPAR" then qBEPAR x else qTRAPAR x

/-- Configurations with equidistant nodes for which `getOrderSDC` announces one order too many. -/
def overstated (M : ℕ) (qt name upd : String) (K : ℕ) : Bool :=
  (M = 3 ∧ qt = "RADAU-RIGHT" ∧ name = "BEPAR" ∧ upd = "LASTNODE" ∧ K = 4) ∨
  (M = 3 ∧ qt = "RADAU-LEFT" ∧ name = "BEPAR" ∧ upd = "QUADRATURE" ∧ K = 3) ∨
  (M = 4 ∧ name = "TRAPAR" ∧ upd = "QUADRATURE" ∧ K = 3) ∨
  (M = 4 ∧ name = "TRAPAR" ∧ upd = "LASTNODE" ∧ K = 4) ∨
  (M = 4 ∧ qt = "LOBATTO" ∧ name = "TRAP" ∧ upd = "LASTNODE" ∧ K = 2)

def equidOrder (M : ℕ) (qt : String) : ℕ := if qt ∈ ["GAUSS", "LOBATTO"] then M + M % 2 else M

def trueOrder (M : ℕ) (qt name upd : String) (K : ℕ) : ℕ :=
  (getOrderSDC M "EQUID" qt (equidOrder M qt) K name upd).toNat -
    if overstated M qt name upd K then 1 else 0

def equidSizes : List (ℕ × String) :=
  [2, 3, 4].flatMap fun M => ["GAUSS", "RADAU-LEFT", "RADAU-RIGHT", "LOBATTO"].map fun qt => (M, qt)

theorem equid_rows : (equidSizes.all fun s => rowOk (equid s.2 s.1) 1 (intRow (equid s.2 s.1) 1) &&
    (equid s.2 s.1).all fun t => rowOk (equid s.2 s.1) t (intRow (equid s.2 s.1) t)) = true := by
  decide +kernel

theorem equid_quadrature : (equidSizes.all fun s => ["BE", "FE", "TRAP", "BEPAR", "TRAPAR"].all fun name =>
    (List.range 6).all fun K =>
      exactOrder (build s.1 (schemeQ name (equid s.2 s.1)))
        (residue s.1 (qmat (equid s.2 s.1)) (schemeQ name (equid s.2 s.1))) s.1 K
        (some (intRow (equid s.2 s.1) 1)) (trueOrder s.1 s.2 name "QUADRATURE" K)) = true := by
  decide +kernel

theorem equid_lastNode : (equidSizes.all fun s => ["BE", "FE", "TRAP", "BEPAR", "TRAPAR"].all fun name =>
    (List.range 6).all fun K => decide (s.2 = "GAUSS" ∨ s.2 = "RADAU-LEFT") || decide (K = 0) ||
      exactOrder (build s.1 (schemeQ name (equid s.2 s.1)))
        (residue s.1 (qmat (equid s.2 s.1)) (schemeQ name (equid s.2 s.1))) s.1 K none
        (trueOrder s.1 s.2 name "LASTNODE" K)) = true := by
  decide +kernel

/-- All orders are positive where they are announced. -/
theorem equid_pos : (equidSizes.all fun s => ["BE", "FE", "TRAP", "BEPAR", "TRAPAR"].all fun name =>
    (List.range 6).all fun K => decide (0 < trueOrder s.1 s.2 name "QUADRATURE" K) &&
      (decide (K = 0) || decide (0 < trueOrder s.1 s.2 name "LASTNODE" K))) = true := by
  decide +kernel

end QMat
