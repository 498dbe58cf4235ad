import Verif.Lemmas.MinCertTable
import Verif.Lemmas.TableSweeps

/-!
# Checks of the sweeps with the tabulated coefficients: Legendre nodes
-/

namespace QMat.HalfPlane

open MinCert

theorem lr9_ok : sweepsOk MinCoeffs.MIN3 min3lr9 false 3 (9882 / 10000) = true := by decide +kernel
theorem lr7_ok : sweepsOk MinCoeffs.MIN3 min3lr7 false 2 (977 / 1000) = true := by decide +kernel
theorem lr5_ok : sweepsOk MinCoeffs.MIN3 min3lr5 false 2 (977 / 1000) = true := by decide +kernel
theorem lr4_ok : sweepsOk MinCoeffs.MIN3 min3lr4 false 1 (954 / 1000) = true := by decide +kernel
theorem lr3_ok : sweepsOk MinCoeffs.MIN3 min3lr3 false 1 (954 / 1000) = true := by decide +kernel
theorem lr2_ok : sweepsOk MinCoeffs.MIN3 min3lr2 false 1 (954 / 1000) = true := by decide +kernel
theorem ll9_ok : sweepsOk MinCoeffs.MIN3 min3ll9 false 2 (977 / 1000) = true := by decide +kernel
theorem ll7_ok : sweepsOk MinCoeffs.MIN3 min3ll7 false 2 (977 / 1000) = true := by decide +kernel
theorem ll5_ok : sweepsOk MinCoeffs.MIN3 min3ll5 false 1 (954 / 1000) = true := by decide +kernel
theorem ll4_ok : sweepsOk MinCoeffs.MIN3 min3ll4 false 1 (954 / 1000) = true := by decide +kernel
theorem ll3_ok : sweepsOk MinCoeffs.MIN3 min3ll3 false 1 (954 / 1000) = true := by decide +kernel
theorem vr3_ok : sweepsOk MinCoeffs.MIN_VDHS vdhslr3 false 1 (954 / 1000) = true := by decide +kernel
theorem vr4_ok : sweepsOk MinCoeffs.MIN_VDHS vdhslr4 false 1 (954 / 1000) = true := by decide +kernel

end QMat.HalfPlane
