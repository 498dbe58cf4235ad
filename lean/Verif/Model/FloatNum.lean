import Verif.Model.Float
import Verif.Model.Num

/-!
# `lduFactorization` in rounded arithmetic

`np.sum` may add in any order, so the loops are relations: one value for every order.
-/

namespace QMat

namespace Rounding

variable {n : ℕ} (R : Rounding)

/-- `num.py` 76, 80, 83: possible values of `np.sum(L[r, :i] * D[:i, :i].diagonal() * U[:i, c])`. -/
def LduDot (s : LDUState n) (i r c : Fin n) (a : ℝ) : Prop :=
  R.NpSum (fun k : {k : Fin n // k < i} => R.fl (R.fl (s.L r k * s.D k k) * s.U k c)) a

/-- `num.py` 78-83: the inner loop over the given indices, from one state to another.  A zero pivot gives infinite or `nan` entries in numpy
and `0` here; the theorems assume non-zero pivots. -/
inductive LduInner (A : Matrix (Fin n) (Fin n) ℝ) (i : Fin n) : LDUState n → List (Fin n) → LDUState n → Prop
  | done (s : LDUState n) : LduInner A i s [] s
  | step {s t : LDUState n} {j : Fin n} {l : List (Fin n)} {a b : ℝ} (ha : R.LduDot s i j i a)
      (hb : R.LduDot { s with L := npSetEntry s.L j i (R.fl (R.fl (A j i - a) / s.D i i)) } i i j b)
      (ht : LduInner A i { s with L := npSetEntry s.L j i (R.fl (R.fl (A j i - a) / s.D i i))
                                  U := npSetEntry s.U i j (R.fl (R.fl (A i j - b) / s.D i i)) } l t) : LduInner A i s (j :: l) t

/-- `num.py` 74-83: the outer loop over the given indices. -/
inductive LduOuter (A : Matrix (Fin n) (Fin n) ℝ) : LDUState n → List (Fin n) → LDUState n → Prop
  | done (s : LDUState n) : LduOuter A s [] s
  | step {s t t' : LDUState n} {i : Fin n} {l : List (Fin n)} {a : ℝ} (ha : R.LduDot s i i i a)
      (ht : R.LduInner A i { s with D := npSetEntry s.D i i (R.fl (A i i - a)) } ((List.finRange n).filter fun j => i < j) t)
      (ht' : LduOuter A t l t') : LduOuter A s (i :: l) t'

/-- `num.py` 46-85: possible results of `lduFactorization(A)` for a square matrix. -/
def LduFactorization (A : Matrix (Fin n) (Fin n) ℝ) (s : LDUState n) : Prop := R.LduOuter A ⟨1, 0, 1⟩ (List.finRange n) s

/-- `algebraic.py` 81-84, `LDU.computeQDelta`: the second array. -/
def LduQDelta (Q D : Matrix (Fin n) (Fin n) ℝ) : Prop := ∃ s, R.LduFactorization Q s ∧ D = s.D

end Rounding

end QMat
