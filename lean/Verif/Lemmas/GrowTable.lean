import Verif.Lemmas.GrowCert
import Verif.Model.QDelta

/-!
# Equidistant nodes with imaginary steps for which the sweeps with `MIN3` do not converge
-/

namespace QMat.Grow

open SDCRat


def caseOk (M : ℕ) (y : ℤ) (k : ℕ) : Bool :=
  let l := equid "RADAU-RIGHT" M
  l.all (fun t => rowOk l t (intRow l t)) &&
  match tableLookup MinCoeffs.MIN3 "EQUID" "RADAU-RIGHT" M with
  | .error _ => false
  | .ok cs => sweepGrows M y k (qmat l) cs

theorem five_ok : caseOk 5 10 6 = true := by decide +kernel
theorem seven_ok : caseOk 7 13 3 = true := by decide +kernel
theorem nine_ok : caseOk 9 14 3 = true := by decide +kernel

end QMat.Grow
