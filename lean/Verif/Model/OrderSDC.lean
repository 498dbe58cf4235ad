import Verif.Model.QCoeff

/-!
# Bonus orders of `getOrderSDC`

Generated by `tools/gen_ordersdc.py` from `/repo/qmat/utils/sdc.py`; do not edit.
-/

namespace QMat

/-- One `order += bonus` of `getOrderSDC` with the tests that guard it; an empty list stands for no test
of that variable. `sdc.py` 187-315. -/
structure OrderBonus where
  /-- line of `sdc.py` -/
  line : ℕ
  stepUpdate : String
  qDelta : String
  nSweeps : ℕ
  nNodes : ℕ
  nodeTypes : List String
  quadTypes : List String
  bonus : ℕ

/-- `sdc.py` 187-315, in order of appearance. -/
def orderBonuses : List OrderBonus := [
  ⟨190, "QUADRATURE", "TRAP", 1, 3, ["EQUID"], ["RADAU-LEFT"], 1⟩,
  ⟨192, "QUADRATURE", "TRAP", 2, 4, ["CHEBY-2"], ["LOBATTO"], 1⟩,
  ⟨194, "QUADRATURE", "TRAP", 2, 4, ["CHEBY-3"], ["RADAU-LEFT"], 1⟩,
  ⟨196, "QUADRATURE", "TRAP", 2, 4, ["CHEBY-4"], ["RADAU-RIGHT", "LOBATTO"], 1⟩,
  ⟨199, "QUADRATURE", "TRAPAR", 2, 3, ["CHEBY-3"], ["RADAU-LEFT"], 1⟩,
  ⟨201, "QUADRATURE", "TRAPAR", 2, 3, ["CHEBY-4"], ["RADAU-RIGHT"], 1⟩,
  ⟨203, "QUADRATURE", "TRAPAR", 3, 3, ["CHEBY-3"], ["RADAU-LEFT"], 1⟩,
  ⟨206, "QUADRATURE", "BE", 3, 3, ["CHEBY-3"], ["RADAU-LEFT"], 1⟩,
  ⟨208, "QUADRATURE", "BE", 3, 3, ["CHEBY-4"], ["RADAU-RIGHT"], 1⟩,
  ⟨211, "QUADRATURE", "FE", 3, 3, ["CHEBY-1"], ["RADAU-RIGHT"], 1⟩,
  ⟨213, "QUADRATURE", "FE", 3, 3, ["CHEBY-3"], ["RADAU-LEFT", "LOBATTO"], 1⟩,
  ⟨215, "QUADRATURE", "FE", 3, 3, ["CHEBY-4"], ["RADAU-RIGHT"], 1⟩,
  ⟨218, "QUADRATURE", "BEPAR", 3, 3, ["EQUID"], ["RADAU-LEFT"], 1⟩,
  ⟨220, "QUADRATURE", "BEPAR", 3, 3, ["CHEBY-1", "CHEBY-2"], ["RADAU-LEFT", "RADAU-RIGHT"], 1⟩,
  ⟨222, "QUADRATURE", "BEPAR", 3, 3, ["CHEBY-3", "CHEBY-4"], [], 1⟩,
  ⟨225, "QUADRATURE", "TRAPAR", 3, 4, ["EQUID"], [], 1⟩,
  ⟨227, "QUADRATURE", "TRAPAR", 3, 4, ["CHEBY-1", "CHEBY-2", "CHEBY-3", "CHEBY-4"], [], 1⟩,
  ⟨231, "QUADRATURE", "SOE", 1, 2, ["LEGENDRE"], ["RADAU-RIGHT"], 1⟩,
  ⟨233, "QUADRATURE", "SOE", 1, 3, ["EQUID"], ["RADAU-LEFT"], 1⟩,
  ⟨235, "QUADRATURE", "SOE", 1, 4, ["CHEBY-2"], ["LOBATTO"], 1⟩,
  ⟨238, "QUADRATURE", "SOE", 2, 4, ["CHEBY-4"], ["RADAU-LEFT"], 1⟩,
  ⟨241, "QUADRATURE", "SOE", 3, 3, ["CHEBY-1"], ["RADAU-RIGHT"], 1⟩,
  ⟨243, "QUADRATURE", "SOE", 3, 3, ["CHEBY-3"], ["RADAU-LEFT", "LOBATTO"], 1⟩,
  ⟨245, "QUADRATURE", "SOE", 3, 3, ["CHEBY-4"], ["GAUSS", "RADAU-RIGHT"], 1⟩,
  ⟨247, "QUADRATURE", "SOE", 3, 4, ["CHEBY-2"], ["RADAU-LEFT"], 1⟩,
  ⟨249, "QUADRATURE", "SOE", 3, 4, ["CHEBY-4"], ["GAUSS"], 1⟩,
  ⟨254, "LASTNODE", "BE", 4, 3, ["CHEBY-4"], ["RADAU-RIGHT"], 1⟩,
  ⟨257, "LASTNODE", "FE", 3, 3, ["EQUID"], ["RADAU-RIGHT"], 1⟩,
  ⟨259, "LASTNODE", "FE", 4, 3, ["CHEBY-4"], ["RADAU-RIGHT"], 1⟩,
  ⟨262, "LASTNODE", "TRAP", 2, 3, ["EQUID", "CHEBY-1", "CHEBY-2"], ["LOBATTO"], 1⟩,
  ⟨264, "LASTNODE", "TRAP", 2, 3, ["LEGENDRE"], [], 1⟩,
  ⟨266, "LASTNODE", "TRAP", 2, 4, ["EQUID"], ["LOBATTO"], 2⟩,
  ⟨268, "LASTNODE", "TRAP", 2, 4, ["EQUID"], ["RADAU-RIGHT"], 1⟩,
  ⟨270, "LASTNODE", "TRAP", 2, 4, ["LEGENDRE", "CHEBY-1", "CHEBY-2", "CHEBY-3", "CHEBY-4"], [], 1⟩,
  ⟨272, "LASTNODE", "TRAP", 3, 3, ["LEGENDRE"], ["RADAU-RIGHT"], 1⟩,
  ⟨274, "LASTNODE", "TRAP", 4, 4, ["LEGENDRE"], ["LOBATTO"], 1⟩,
  ⟨276, "LASTNODE", "TRAP", 4, 4, ["LEGENDRE"], ["RADAU-RIGHT"], 2⟩,
  ⟨279, "LASTNODE", "BEPAR", 3, 2, ["CHEBY-2"], ["RADAU-RIGHT"], 1⟩,
  ⟨281, "LASTNODE", "BEPAR", 4, 3, ["EQUID", "CHEBY-1", "CHEBY-2", "CHEBY-3", "CHEBY-4"], ["RADAU-RIGHT"], 1⟩,
  ⟨283, "LASTNODE", "BEPAR", 4, 3, ["CHEBY-3", "CHEBY-4"], ["LOBATTO"], 1⟩,
  ⟨286, "LASTNODE", "TRAPAR", 3, 3, ["CHEBY-4"], ["RADAU-RIGHT"], 1⟩,
  ⟨288, "LASTNODE", "TRAPAR", 4, 4, ["EQUID", "CHEBY-1", "CHEBY-2", "CHEBY-3", "CHEBY-4"], [], 1⟩,
  ⟨292, "LASTNODE", "SOE", 1, 2, ["EQUID", "CHEBY-3"], ["RADAU-RIGHT"], 1⟩,
  ⟨294, "LASTNODE", "SOE", 1, 3, ["EQUID", "LEGENDRE", "CHEBY-1", "CHEBY-2"], ["LOBATTO"], 1⟩,
  ⟨296, "LASTNODE", "SOE", 1, 4, ["EQUID", "CHEBY-3"], ["RADAU-RIGHT"], 1⟩,
  ⟨299, "LASTNODE", "SOE", 2, 3, ["LEGENDRE"], ["RADAU-RIGHT"], 1⟩,
  ⟨301, "LASTNODE", "SOE", 2, 4, ["CHEBY-4"], ["RADAU-RIGHT"], 1⟩,
  ⟨304, "LASTNODE", "SOE", 3, 3, ["LEGENDRE"], ["RADAU-RIGHT"], 1⟩,
  ⟨306, "LASTNODE", "SOE", 3, 4, ["CHEBY-2"], ["RADAU-RIGHT"], 1⟩,
  ⟨309, "LASTNODE", "SOE", 4, 3, ["LEGENDRE", "CHEBY-3"], ["RADAU-RIGHT"], 1⟩,
  ⟨311, "LASTNODE", "SOE", 4, 3, ["CHEBY-4"], [], 1⟩,
  ⟨313, "LASTNODE", "SOE", 4, 4, ["EQUID", "CHEBY-2"], ["RADAU-RIGHT"], 1⟩,
  ⟨315, "LASTNODE", "SOE", 4, 4, ["LEGENDRE"], ["LOBATTO"], 1⟩]

end QMat
