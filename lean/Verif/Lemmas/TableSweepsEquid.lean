import Verif.Lemmas.MinCertTable
import Verif.Lemmas.TableSweeps

/-!
# Checks of the sweeps with the tabulated coefficients: equidistant nodes
-/

namespace QMat.HalfPlane

open MinCert

theorem er2_ok : sweepsOk MinCoeffs.MIN3 min3er2 false 1 (954 / 1000) = true := by decide +kernel
theorem er3_ok : sweepsOk MinCoeffs.MIN3 min3er3 false 1 (954 / 1000) = true := by decide +kernel
theorem er4_ok : sweepsOk MinCoeffs.MIN3 min3er4 false 3 (9882 / 10000) = true := by decide +kernel
theorem er5_ok : sweepsOk MinCoeffs.MIN3 min3er5 true 1 (954 / 1000) = true := by decide +kernel
theorem er7_ok : sweepsOk MinCoeffs.MIN3 min3er7 true 2 (977 / 1000) = true := by decide +kernel
theorem er9_ok : sweepsOk MinCoeffs.MIN3 min3er9 true 2 (977 / 1000) = true := by decide +kernel

end QMat.HalfPlane
