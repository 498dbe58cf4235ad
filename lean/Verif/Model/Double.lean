import Verif.Model.Float

/-!
# Model: weights and interpolation of `lagrange.py` with overflow and underflow

`Model/Float` rounds with unbounded exponents.  Here results that are too large become infinite, results that are too small lose
accuracy or become zero, and `np.errstate` decides whether a division by zero raises.

Simplification: zero has no sign, so the sign of `1 / 0` (which is never used by the code: it raises or is replaced) is the one of the
numerator.
-/

namespace QMat

/-- A floating point number. Values of numpy arrays in `lagrange.py` 180-230, 337-349. -/
inductive FP where
  | fin (x : ℝ)
  | inf (neg : Bool)
  | nan

/-- A floating point format: rounding as in `Model/Float` between the smallest normal number `small` and the largest number `large`;
`fl` is the rounding with unbounded exponents upwards: below `small` it has an absolute error of at most `tiny`.
Arithmetic of `lagrange.py` 180-230, 337-349. -/
structure Format where
  R : Rounding
  fl : ℝ → ℝ
  small : ℝ
  large : ℝ
  tiny : ℝ
  small_pos : 0 < small
  small_le_one : small ≤ 1
  one_le_large : 1 ≤ large
  tiny_nonneg : 0 ≤ tiny
  fl_normal : ∀ x, small ≤ |x| → fl x = R.fl x
  fl_small : ∀ x, |x| < small → |fl x - x| ≤ tiny
  fl_zero : fl 0 = 0
  fl_idem : ∀ x, fl (fl x) = fl x
  fl_neg : ∀ a, fl a = a → fl (-a) = -a
  /-- Sums of floating point numbers that are too small for a normal number are exact. -/
  add_small : ∀ a b, fl a = a → fl b = b → |a + b| < small → fl (a + b) = a + b ∧ R.fl (a + b) = a + b

namespace Format

variable {ι : Type*} [DecidableEq ι] {n : ℕ} (F : Format)

open Classical in
/-- The result of an operation with exact value `x`. Arithmetic of `lagrange.py` 180-230, 337-349. -/
noncomputable def rnd (x : ℝ) : FP := if F.large < |F.fl x| then .inf (decide (x < 0)) else .fin (F.fl x)

open Classical in
/-- `lagrange.py` 185, 348: products of numbers. -/
noncomputable def mul : FP → FP → FP
  | .fin x, .fin y => F.rnd (x * y)
  | .inf s, .inf s' => .inf (xor s s')
  | .inf s, .fin y => if y = 0 then .nan else .inf (xor s (decide (y < 0)))
  | .fin x, .inf s => if x = 0 then .nan else .inf (xor (decide (x < 0)) s)
  | .nan, _ => .nan
  | _, .nan => .nan

open Classical in
/-- `lagrange.py` 186, 338, 349: quotients of numbers. -/
noncomputable def div : FP → FP → FP
  | .fin x, .fin y => if y = 0 then (if x = 0 then .nan else .inf (decide (x < 0))) else F.rnd (x / y)
  | .inf _, .inf _ => .nan
  | .inf s, .fin y => .inf (xor s (decide (y < 0)))
  | .fin _, .inf _ => .fin 0
  | .nan, _ => .nan
  | _, .nan => .nan

/-- `lagrange.py` 192, 349: sums of numbers. -/
noncomputable def add : FP → FP → FP
  | .fin x, .fin y => F.rnd (x + y)
  | .inf s, .inf s' => if s = s' then .inf s else .nan
  | .inf s, .fin _ => .inf s
  | .fin _, .inf s => .inf s
  | .nan, _ => .nan
  | _, .nan => .nan

/-- Results of reducing the entries `f i`, `i ∈ s`, in any order and with any brackets.
`lagrange.py` 185, 192, 349: reductions `prod` and `sum`. -/
inductive Reduce (op : FP → FP → FP) (f : ι → FP) : Finset ι → FP → Prop
  | single (i : ι) : Reduce op f {i} (f i)
  | combine {s t : Finset ι} {a b : FP} (hst : Disjoint s t) (hs : Reduce op f s a) (ht : Reduce op f t b) :
      Reduce op f (s ∪ t) (op a b)

/-- Possible results of `np.sum` of an array. `lagrange.py` 192, 349. -/
def NpSum [Fintype ι] (f : ι → FP) (a : FP) : Prop := (IsEmpty ι ∧ a = .fin 0) ∨ Reduce F.add f Finset.univ a

/-- Possible results of `np.prod` of an array. `lagrange.py` 185. -/
def NpProd [Fintype ι] (f : ι → FP) (a : FP) : Prop := (IsEmpty ι ∧ a = .fin 1) ∨ Reduce F.mul f Finset.univ a

/-- `lagrange.py` 180-181: `diffs = points[:,None] - points[None,:]` with the diagonal set to 1. -/
noncomputable def diffs (x : Fin n → ℝ) (i j : Fin n) : FP := if i = j then .fin 1 else F.rnd (x i - x j)

/-- `lagrange.py` 183-187, `analytic`, for given products: `invProd **= -1`. -/
noncomputable def invProd (p : Fin n → FP) (i : Fin n) : FP := F.div (.fin 1) (p i)

/-- `np.log` and `np.exp`: relative errors of at most `v` for floating point numbers, as long as the result of `np.exp` is in the range of normal numbers; below
an absolute error of at most `tiny`, above infinite. `lagrange.py` 192, 199. -/
structure Elementary where
  log : ℝ → ℝ
  exp : ℝ → FP
  v : ℝ
  v_nonneg : 0 ≤ v
  v_lt_one : v < 1
  log_fl : ∀ y, F.fl (log y) = log y
  log_err : ∀ y, F.fl y = y → |log y - Real.log y| ≤ v * |Real.log y|
  exp_normal : ∀ y, F.small ≤ Real.exp y → Real.exp y * (1 + v) ≤ F.large →
    ∃ e, exp y = .fin e ∧ |e - Real.exp y| ≤ v * Real.exp y
  exp_small : ∀ y, Real.exp y < F.small → ∃ e, exp y = .fin e ∧ |e - Real.exp y| ≤ F.tiny

/-- `np.log` of the absolute value of a number that is not zero. `lagrange.py` 192. -/
noncomputable def Elementary.logAbs {F : Format} (E : F.Elementary) : FP → FP
  | .fin x => .fin (E.log |x|)
  | .inf _ => .inf false
  | .nan => .nan

/-- `np.exp`. `lagrange.py` 199. -/
noncomputable def Elementary.expFP {F : Format} (E : F.Elementary) : FP → FP
  | .fin x => E.exp x
  | .inf false => .inf false
  | .inf true => .fin 0
  | .nan => .nan

/-- `np.sign` (differences of finite points are not nan). `lagrange.py` 191. -/
noncomputable def sign : FP → ℝ
  | .fin x => npSign x
  | .inf s => if s then -1 else 1
  | .nan => 0

/-- `lagrange.py` 192: the sign in `-np.log(...)`. -/
def neg : FP → FP
  | .fin x => .fin (-x)
  | .inf s => .inf (!s)
  | .nan => .nan

/-- `lagrange.py` 189-201, `logScale` with `scaleRef = 'MAX'`: possible weights (products of signs are exact).  The maximum
is one of the entries (not if one of them is nan: then the result is nan; the differences of finite points are not nan). -/
def LogScaleMax (E : F.Elementary) (x : Fin n → ℝ) (w : Fin n → FP) : Prop :=
  ∃ wLog : Fin n → FP, (∀ i, ∃ a, F.NpSum (fun j => E.logAbs (F.diffs x i j)) a ∧ wLog i = neg a) ∧
    ∃ k : Fin n, (∀ i, wLog i = wLog k ∨ wLog i = .inf true ∨ wLog k = .inf false ∨
        ∃ a b, wLog i = .fin a ∧ wLog k = .fin b ∧ a ≤ b) ∧
      ∀ i, w i = F.mul (E.expFP (F.add (wLog i) (neg (wLog k)))) (.fin (∏ j, sign (F.diffs x i j)))

/-- `lagrange.py` 183-187 and 219-220: possible weights with `'FAST'`. -/
def Fast (x : Fin n → ℝ) (w : Fin n → FP) : Prop :=
  ∃ p : Fin n → FP, (∀ i, F.NpProd (F.diffs x i) (p i)) ∧ ∀ i, w i = F.invProd p i

/-- `lagrange.py` 213-218: possible weights with `'AUTO'` and the default `scaleRef`.  With `np.errstate(divide='raise', over='ignore')`
`FloatingPointError` is raised by the division by a product that is zero, and by nothing else. -/
def Auto (E : F.Elementary) (x : Fin n → ℝ) (w : Fin n → FP) : Prop :=
  ∃ p : Fin n → FP, (∀ i, F.NpProd (F.diffs x i) (p i)) ∧
    ((∃ i, p i = .fin 0) ∧ F.LogScaleMax E x w ∨ (∀ i, p i ≠ .fin 0) ∧ ∀ i, w i = F.invProd p i)

/-- `lagrange.py` 337-338: `1 / (times[:, None] - self.uniquePoints[None, :])`. -/
noncomputable def iDiff (x : Fin n → ℝ) (t : ℝ) (j : Fin n) : FP := F.div (.fin 1) (F.rnd (t - x j))

/-- `lagrange.py` 341: infinite entries. -/
def concom (a : FP) : Prop := ∃ s, a = .inf s

open Classical in
/-- `lagrange.py` 341-348: the entries `iDiff * self.weights` of a row. -/
noncomputable def rowTerms (x : Fin n → ℝ) (w : Fin n → FP) (t : ℝ) (j : Fin n) : FP :=
  F.mul (if ∃ k, concom (F.iDiff x t k) then (if concom (F.iDiff x t j) then .fin 1 else .fin 0) else F.iDiff x t j) (w j)

/-- `lagrange.py` 337-349: possible rows of `getInterpolationMatrix([t])` for distinct points. -/
def InterpolationRow (x : Fin n → ℝ) (w : Fin n → FP) (t : ℝ) (P : Fin n → FP) : Prop :=
  ∃ S, F.NpSum (F.rowTerms x w t) S ∧ ∀ j, P j = F.div (F.rowTerms x w t j) S

end Format

end QMat
