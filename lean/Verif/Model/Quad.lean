import Mathlib.Data.Rat.Lemmas
import Mathlib.Tactic.LinearCombination
import Mathlib.Analysis.Real.Sqrt

/-!
# Numbers `a + b √d` with rational `a`, `b`

The Butcher tables contain rationals and expressions in `2**0.5` or `3**0.5`; they are modelled as exact
numbers of this form.
-/

namespace QMat

/-- `a + b √d`. Entries of the tables in `butcher.py` 121-1017. -/
structure Quad (d : ℕ) where
  a : ℚ
  b : ℚ
  deriving DecidableEq

namespace Quad

variable {d : ℕ}

/-- Value as a real number. Entries of the tables in `butcher.py` 121-1017. -/
noncomputable def toReal (x : Quad d) : ℝ := x.a + x.b * Real.sqrt d

-- Arithmetic on the entries of the tables in `butcher.py` 121-1017.
instance : Zero (Quad d) := ⟨⟨0, 0⟩⟩
instance : One (Quad d) := ⟨⟨1, 0⟩⟩
instance : Add (Quad d) := ⟨fun x y => ⟨x.a + y.a, x.b + y.b⟩⟩
instance : Sub (Quad d) := ⟨fun x y => ⟨x.a - y.a, x.b - y.b⟩⟩
instance : Mul (Quad d) := ⟨fun x y => ⟨x.a * y.a + d * (x.b * y.b), x.a * y.b + x.b * y.a⟩⟩

/-- The rational `n/m`. Entries of the tables in `butcher.py` 121-1017. -/
def q (n : ℤ) (m : ℕ := 1) : Quad d := ⟨mkRat n m, 0⟩

/-- `n/m + k/l √d`. Entries of the tables in `butcher.py` 121-1017. -/
def r (n : ℤ) (m : ℕ) (k : ℤ) (l : ℕ) : Quad d := ⟨mkRat n m, mkRat k l⟩

@[simp] theorem toReal_zero : toReal (0 : Quad d) = 0 := by
  change ((0:ℚ):ℝ) + ((0:ℚ):ℝ) * _ = 0; simp

@[simp] theorem toReal_one : toReal (1 : Quad d) = 1 := by
  change ((1:ℚ):ℝ) + ((0:ℚ):ℝ) * _ = 1; simp

@[simp] theorem toReal_add (x y : Quad d) : toReal (x + y) = toReal x + toReal y := by
  change (((x.a + y.a : ℚ)):ℝ) + ((x.b + y.b : ℚ):ℝ) * _ = _
  unfold toReal; push_cast; ring

@[simp] theorem toReal_sub (x y : Quad d) : toReal (x - y) = toReal x - toReal y := by
  change (((x.a - y.a : ℚ)):ℝ) + ((x.b - y.b : ℚ):ℝ) * _ = _
  unfold toReal; push_cast; ring

@[simp] theorem toReal_mul (x y : Quad d) : toReal (x * y) = toReal x * toReal y := by
  change (((x.a * y.a + d * (x.b * y.b) : ℚ)):ℝ) + ((x.a * y.b + x.b * y.a : ℚ):ℝ) * _ = _
  unfold toReal
  have h : Real.sqrt d * Real.sqrt d = d := Real.mul_self_sqrt (Nat.cast_nonneg d)
  push_cast
  linear_combination (-(x.b:ℝ) * y.b) * h

theorem toReal_q (n : ℤ) (m : ℕ) : toReal (q n m : Quad d) = n / m := by
  unfold toReal q; simp [Rat.mkRat_eq_div]

theorem toReal_r (n : ℤ) (m : ℕ) (k : ℤ) (l : ℕ) :
    toReal (r n m k l : Quad d) = n / m + k / l * Real.sqrt d := by
  unfold toReal r; simp [Rat.mkRat_eq_div]

end Quad

end QMat
