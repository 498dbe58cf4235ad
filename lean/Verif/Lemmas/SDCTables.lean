import Verif.Lemmas.NodeEnclosure
import Verif.Props.OrderSDC

/-!
# The exact orders of SDC with one to four nodes: computations
-/

namespace QMat

open Matrix Polynomial Spec NodesGenerator

namespace SDCArith

/-! ## Enclosures of the nodes -/

/-- Node type, quadrature type and the nodes on `[0, 1]` times `2^60`, rounded. -/
def nodeTable : List (String × String × List ℕ) := [
  ("EQUID", "GAUSS", [576460752303423488]),
  ("EQUID", "GAUSS", [384307168202282325, 768614336404564651]),
  ("EQUID", "GAUSS", [288230376151711744, 576460752303423488, 864691128455135232]),
  ("EQUID", "GAUSS", [230584300921369395, 461168601842738790, 691752902764108186, 922337203685477581]),
  ("EQUID", "RADAU-LEFT", [0, 576460752303423488]),
  ("EQUID", "RADAU-LEFT", [0, 384307168202282325, 768614336404564651]),
  ("EQUID", "RADAU-LEFT", [0, 288230376151711744, 576460752303423488, 864691128455135232]),
  ("EQUID", "RADAU-RIGHT", [1152921504606846976]),
  ("EQUID", "RADAU-RIGHT", [576460752303423488, 1152921504606846976]),
  ("EQUID", "RADAU-RIGHT", [384307168202282325, 768614336404564651, 1152921504606846976]),
  ("EQUID", "RADAU-RIGHT", [288230376151711744, 576460752303423488, 864691128455135232, 1152921504606846976]),
  ("EQUID", "LOBATTO", [0, 1152921504606846976]),
  ("EQUID", "LOBATTO", [0, 576460752303423488, 1152921504606846976]),
  ("EQUID", "LOBATTO", [0, 384307168202282325, 768614336404564651, 1152921504606846976]),
  ("LEGENDRE", "GAUSS", [576460752303423488]),
  ("LEGENDRE", "GAUSS", [243640981783787757, 909280522823059219]),
  ("LEGENDRE", "GAUSS", [129936173620751888, 576460752303423488, 1022985330986095088]),
  ("LEGENDRE", "GAUSS", [80049466286120638, 380475024149594236, 772446480457252740, 1072872038320726338]),
  ("LEGENDRE", "RADAU-LEFT", [0, 768614336404564651]),
  ("LEGENDRE", "RADAU-LEFT", [0, 409345962787246157, 974159842740970214]),
  ("LEGENDRE", "RADAU-LEFT", [0, 244811972835711937, 680838351169187266, 1050786541035409899]),
  ("LEGENDRE", "RADAU-RIGHT", [1152921504606846976]),
  ("LEGENDRE", "RADAU-RIGHT", [384307168202282325, 1152921504606846976]),
  ("LEGENDRE", "RADAU-RIGHT", [178761661865876762, 743575541819600819, 1152921504606846976]),
  ("LEGENDRE", "RADAU-RIGHT", [102134963571437077, 472083153437659710, 908109531771135039, 1152921504606846976]),
  ("LEGENDRE", "LOBATTO", [0, 1152921504606846976]),
  ("LEGENDRE", "LOBATTO", [0, 576460752303423488, 1152921504606846976]),
  ("LEGENDRE", "LOBATTO", [0, 318659666601198809, 834261838005648167, 1152921504606846976]),
  ("CHEBY-1", "GAUSS", [576460752303423488]),
  ("CHEBY-1", "GAUSS", [168841445261774044, 984080059345072932]),
  ("CHEBY-1", "GAUSS", [77231096523969891, 576460752303423488, 1075690408082877085]),
  ("CHEBY-1", "GAUSS", [43880461954231926, 355858772988187558, 797062731618659418, 1109041042652615050]),
  ("CHEBY-1", "RADAU-LEFT", [0, 864691128455135232]),
  ("CHEBY-1", "RADAU-LEFT", [0, 398324583251498512, 1042827297507060208]),
  ("CHEBY-1", "RADAU-LEFT", [0, 217043352070425509, 704735337295140903, 1095833943696415797]),
  ("CHEBY-1", "RADAU-RIGHT", [1152921504606846976]),
  ("CHEBY-1", "RADAU-RIGHT", [288230376151711744, 1152921504606846976]),
  ("CHEBY-1", "RADAU-RIGHT", [110094207099786768, 754596921355348464, 1152921504606846976]),
  ("CHEBY-1", "RADAU-RIGHT", [57087560910431179, 448186167311706073, 935878152536421467, 1152921504606846976]),
  ("CHEBY-1", "LOBATTO", [0, 1152921504606846976]),
  ("CHEBY-1", "LOBATTO", [0, 576460752303423488, 1152921504606846976]),
  ("CHEBY-1", "LOBATTO", [0, 288230376151711744, 864691128455135232, 1152921504606846976]),
  ("CHEBY-2", "GAUSS", [576460752303423488]),
  ("CHEBY-2", "GAUSS", [288230376151711744, 864691128455135232]),
  ("CHEBY-2", "GAUSS", [168841445261774044, 576460752303423488, 984080059345072932]),
  ("CHEBY-2", "GAUSS", [110094207099786768, 398324583251498512, 754596921355348464, 1042827297507060208]),
  ("CHEBY-2", "RADAU-LEFT", [0, 720575940379279360]),
  ("CHEBY-2", "RADAU-LEFT", [0, 418342245823316919, 926732842884671220]),
  ("CHEBY-2", "RADAU-LEFT", [0, 266332820213778300, 664560594140592317, 1014661624669683656]),
  ("CHEBY-2", "RADAU-RIGHT", [1152921504606846976]),
  ("CHEBY-2", "RADAU-RIGHT", [432345564227567616, 1152921504606846976]),
  ("CHEBY-2", "RADAU-RIGHT", [226188661722175756, 734579258783530057, 1152921504606846976]),
  ("CHEBY-2", "RADAU-RIGHT", [138259879937163320, 488360910466254659, 886588684393068676, 1152921504606846976]),
  ("CHEBY-2", "LOBATTO", [0, 1152921504606846976]),
  ("CHEBY-2", "LOBATTO", [0, 576460752303423488, 1152921504606846976]),
  ("CHEBY-2", "LOBATTO", [0, 341121635656038464, 811799868950808512, 1152921504606846976]),
  ("CHEBY-3", "GAUSS", [864691128455135232]),
  ("CHEBY-3", "GAUSS", [398324583251498512, 1042827297507060208]),
  ("CHEBY-3", "GAUSS", [217043352070425509, 704735337295140903, 1095833943696415797]),
  ("CHEBY-3", "GAUSS", [134866196325200307, 476359393169426278, 864691128455135232, 1118156667415643879]),
  ("CHEBY-3", "RADAU-LEFT", [0, 960767920505705813]),
  ("CHEBY-3", "RADAU-LEFT", [0, 542877549964630159, 1071212556484955607]),
  ("CHEBY-3", "RADAU-LEFT", [0, 330192588987632725, 785662078458260686, 1107636805724454329]),
  ("CHEBY-3", "RADAU-RIGHT", [1152921504606846976]),
  ("CHEBY-3", "RADAU-RIGHT", [576460752303423488, 1152921504606846976]),
  ("CHEBY-3", "RADAU-RIGHT", [288230376151711744, 864691128455135232, 1152921504606846976]),
  ("CHEBY-3", "RADAU-RIGHT", [168841445261774044, 576460752303423488, 984080059345072932, 1152921504606846976]),
  ("CHEBY-3", "LOBATTO", [0, 1152921504606846976]),
  ("CHEBY-3", "LOBATTO", [0, 720575940379279360, 1152921504606846976]),
  ("CHEBY-3", "LOBATTO", [0, 418342245823316919, 926732842884671220, 1152921504606846976]),
  ("CHEBY-4", "GAUSS", [288230376151711744]),
  ("CHEBY-4", "GAUSS", [110094207099786768, 754596921355348464]),
  ("CHEBY-4", "GAUSS", [57087560910431179, 448186167311706073, 935878152536421467]),
  ("CHEBY-4", "GAUSS", [34764837191203097, 288230376151711744, 676562111437420698, 1018055308281646669]),
  ("CHEBY-4", "RADAU-LEFT", [0, 576460752303423488]),
  ("CHEBY-4", "RADAU-LEFT", [0, 288230376151711744, 864691128455135232]),
  ("CHEBY-4", "RADAU-LEFT", [0, 168841445261774044, 576460752303423488, 984080059345072932]),
  ("CHEBY-4", "RADAU-RIGHT", [1152921504606846976]),
  ("CHEBY-4", "RADAU-RIGHT", [192153584101141163, 1152921504606846976]),
  ("CHEBY-4", "RADAU-RIGHT", [81708948121891369, 610043954642216817, 1152921504606846976]),
  ("CHEBY-4", "RADAU-RIGHT", [45284698882392647, 367259426148586290, 822728915619214251, 1152921504606846976]),
  ("CHEBY-4", "LOBATTO", [0, 1152921504606846976]),
  ("CHEBY-4", "LOBATTO", [0, 432345564227567616, 1152921504606846976]),
  ("CHEBY-4", "LOBATTO", [0, 226188661722175756, 734579258783530057, 1152921504606846976])]

/-- The distance to the true nodes times `2^60` is at most this. -/
def nodeRad : ℕ := 2

def nodeBalls (ms : List ℕ) : List (Option Ball) := ms.map fun m : ℕ => some ⟨(m : ℤ), nodeRad⟩

/-- A number of `[0, 1]` times `2^60`, mapped to `[-1, 1]`. -/
def toRef (k : ℤ) : ℚ := 2 * (k : ℚ) / Ball.S - 1

/-- Every interval is left of the next one. -/
def separated : List ℕ → Bool
  | a :: b :: l => decide (a + 2 * nodeRad < b) && separated (b :: l)
  | _ => true

/-- The first node is the left end. -/
def isLeft (qt : String) : Bool := qt = "LOBATTO" || qt = "RADAU-LEFT"

/-- The last node is the right end. -/
def isRight (qt : String) : Bool := qt = "LOBATTO" || qt = "RADAU-RIGHT"

/-- The polynomial of the nodes changes its sign around every entry, and only nodes that are end nodes are
close to the ends. -/
def orthoOk (nt qt : String) (ms : List ℕ) : Bool :=
  let m := ms.length - 1
  let ab := lastQ nt qt m
  (decide (qt ≠ "LOBATTO") || decide (evalLast nt m ab 1 = 0 ∧ evalLast nt m ab (-1) = 0)) &&
  (ms.all fun k => decide (evalLast nt m ab (toRef (k - nodeRad)) * evalLast nt m ab (toRef (k + nodeRad)) ≤ 0)) &&
  separated ms &&
  (isLeft qt || decide (Ball.S / 100 < ms.getD 0 0)) &&
  (isRight qt || decide (ms.getD m 0 < Ball.S - Ball.S / 100))

def equidOk (qt : String) (ms : List ℕ) : Bool :=
  (List.range ms.length).all fun i =>
    decide (|(SDCRat.equid qt ms.length).getD i 0 * Ball.S - ms.getD i 0| ≤ nodeRad)

def nodesOk (e : String × String × List ℕ) : Bool :=
  if e.1 = "EQUID" then equidOk e.2.1 e.2.2 else orthoOk e.1 e.2.1 e.2.2

theorem nodeTable_ok : nodeTable.all nodesOk = true := by decide +kernel

/-! ## The true orders -/

/-- The configurations in which SDC with one to four nodes is faster than `baseOrderSDC`. -/
def trueBonuses : List OrderBonus := [
  ⟨0, "QUADRATURE", "TRAP", 1, 3, ["EQUID"], ["RADAU-LEFT"], 1⟩,
  ⟨0, "QUADRATURE", "SOE", 1, 2, ["LEGENDRE"], ["RADAU-RIGHT"], 1⟩,
  ⟨0, "QUADRATURE", "SOE", 1, 3, ["EQUID"], ["RADAU-LEFT"], 1⟩,
  ⟨0, "LASTNODE", "TRAP", 1, 1, [], ["RADAU-RIGHT"], 1⟩,
  ⟨0, "LASTNODE", "TRAPAR", 1, 1, [], ["RADAU-RIGHT"], 1⟩,
  ⟨0, "LASTNODE", "FE", 3, 3, ["EQUID"], ["RADAU-RIGHT"], 1⟩,
  ⟨0, "LASTNODE", "TRAP", 2, 3, ["EQUID", "LEGENDRE", "CHEBY-1", "CHEBY-2"], ["LOBATTO"], 1⟩,
  ⟨0, "LASTNODE", "TRAP", 2, 4, ["EQUID", "LEGENDRE", "CHEBY-1", "CHEBY-2"], ["LOBATTO"], 1⟩,
  ⟨0, "LASTNODE", "TRAP", 2, 4, ["EQUID", "CHEBY-3"], ["RADAU-RIGHT"], 1⟩,
  ⟨0, "LASTNODE", "TRAP", 4, 4, ["LEGENDRE"], ["LOBATTO"], 1⟩,
  ⟨0, "LASTNODE", "SOE", 1, 2, ["EQUID", "CHEBY-3"], ["RADAU-RIGHT"], 1⟩,
  ⟨0, "LASTNODE", "SOE", 1, 3, ["EQUID", "LEGENDRE", "CHEBY-1", "CHEBY-2"], ["LOBATTO"], 1⟩,
  ⟨0, "LASTNODE", "SOE", 1, 4, ["EQUID", "CHEBY-3"], ["RADAU-RIGHT"], 1⟩]

def trueBonus (M : ℕ) (nt qt : String) (K : ℤ) (name upd : String) : Bool :=
  trueBonuses.any fun o => o.applies M nt qt K name upd

/-- The exact order of `K` sweeps. -/
def trueOrderSDC (M : ℕ) (nt qt : String) (order : ℕ) (K : ℤ) (name upd : String) : ℤ :=
  baseOrderSDC order K name upd + if trueBonus M nt qt K name upd then 1 else 0

/-- `Collocation.order` from the types. -/
def collOrder (nt qt : String) (M : ℕ) : ℕ :=
  if nt ≠ "LEGENDRE" then
    if qt ∈ ["GAUSS", "LOBATTO"] ∧ nt ∈ ["EQUID", "CHEBY-1", "CHEBY-2"] then M + M % 2 else M
  else if qt = "GAUSS" then 2 * M
  else if pyStartsWith qt "RADAU" then 2 * M - 1
  else 2 * M - 2

def timeNames : List String := ["BE", "FE", "TRAP", "BEPAR", "TRAPAR", "SOE"]

def schemeA {α : Type} (A : Arith α) (name : String) (left : Bool) (x : List α) : ℕ → ℕ → α :=
  if name = "BE" then qBE A x else if name = "FE" then qFE A x else if name = "TRAP" then qTRAP A x
  else if name = "BEPAR" then qBEPAR A x else if name = "TRAPAR" then qTRAPAR A x else qSOE A x left

/-- Run of `n` sweeps on given nodes. -/
def runScheme {α : Type} (A : Arith α) (name : String) (left : Bool) (x : List α) (J n : ℕ)
    (chk : List α → ℕ → List (List α) → Bool) : Bool :=
  let M := x.length
  let Q := x.map (intRow A x)
  let w := intRow A x (A.ofRat 1)
  let f := schemeA A name left x
  let D := (List.range M).map fun i => (List.range M).map fun j => f i j
  let R := (List.range M).map fun i => (List.range M).map fun j => A.sub (nd A (Q.getD i []) j) (f i j)
  run A D R M J (chk w) n 0 (start A M J)

/-- Taylor coefficient `j + 1` of the factor of the step, from the weights and the coefficient vectors. -/
def quadCoeff {α : Type} (A : Arith α) (w : List α) (T : List (List α)) (j : ℕ) : α :=
  dot A w (T.getD j [])

/-- Taylor coefficient `j` of the last node. -/
def lastCoeff {α : Type} (A : Arith α) (M : ℕ) (T : List (List α)) (j : ℕ) : α := nd A (T.getD j []) (M - 1)

/-- The coefficient after the ones that agree with the exponential does not. -/
def ballCheck (M : ℕ) (nt qt : String) (order : ℕ) (name : String) (w : List (Option Ball)) (k : ℕ)
    (T : List (List (Option Ball))) : Bool :=
  let pq := (trueOrderSDC M nt qt order k name "QUADRATURE").toNat
  let pl := (trueOrderSDC M nt qt order k name "LASTNODE").toNat
  (decide (0 < pq) && decide (pq ≤ order + 1) && Ball.avoids (quadCoeff Ball.arith w T pq) (pq + 1).factorial) &&
  (!isRight qt || decide (k = 0) ||
    (decide (0 < pl) && decide (pl ≤ order + 1) && Ball.avoids (lastCoeff Ball.arith M T (pl + 1)) (pl + 1).factorial))

def notFasterOk (e : String × String × List ℕ) : Bool :=
  let order := collOrder e.1 e.2.1 e.2.2.length
  timeNames.all fun name =>
    runScheme Ball.arith name (isLeft e.2.1) (nodeBalls e.2.2) (order + 2) (max (order + 1) 5)
      (ballCheck e.2.2.length e.1 e.2.1 order name)

set_option maxRecDepth 100000 in
theorem notFaster_table : nodeTable.all notFasterOk = true := by decide +kernel

end SDCArith

end QMat
