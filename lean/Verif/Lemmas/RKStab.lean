import Verif.Lemmas.Butcher
import Verif.Lemmas.Nilpotent
import Mathlib.Topology.Algebra.Polynomial
import Mathlib.Analysis.Complex.PhragmenLindelof

/-!
# Stability functions of tables by exact computation

Polynomials are lists of coefficients `a + b √d`, lowest degree first.
-/

namespace QMat

open Spec Matrix

namespace QPoly

variable {d : ℕ}

/-- Sum of two polynomials. -/
def add : List (Quad d) → List (Quad d) → List (Quad d)
  | [], q => q
  | p, [] => p
  | a :: p, b :: q => (a + b) :: add p q

/-- Multiple of a polynomial. -/
def smul (a : Quad d) (p : List (Quad d)) : List (Quad d) := p.map (a * ·)

/-- Product of two polynomials. -/
def mul : List (Quad d) → List (Quad d) → List (Quad d)
  | [], _ => []
  | a :: p, q => add (smul a q) (0 :: mul p q)

/-- Difference of two polynomials. -/
def sub (p q : List (Quad d)) : List (Quad d) := add p (smul (0 - 1) q)

/-- `∑ a_j p_j`. -/
def lincomb (a : List (Quad d)) (p : List (List (Quad d))) : List (Quad d) :=
  (List.zipWith smul a p).foldr add []

/-- Are all coefficients zero? -/
def isZero (p : List (Quad d)) : Bool := p.all fun x => x = 0

/-- Parts of even and odd degree, as polynomials in the square. -/
def parts : List (Quad d) → List (Quad d) × List (Quad d)
  | [] => ([], [])
  | a :: p => (a :: (parts p).2, (parts p).1)

/-- `p(-x)`. -/
def alt : List (Quad d) → List (Quad d)
  | [] => []
  | a :: p => a :: smul (0 - 1) (alt p)

/-- `|p(i y)|^2` as a polynomial in `y^2`. -/
def normSq (p : List (Quad d)) : List (Quad d) :=
  add (mul (alt (parts p).1) (alt (parts p).1)) (0 :: mul (alt (parts p).2) (alt (parts p).2))

section eval

variable {K : Type*} [Field K] [Algebra ℝ K]

/-- Value of a polynomial. -/
noncomputable def eval (p : List (Quad d)) (x : K) : K :=
  p.foldr (fun c acc => algebraMap ℝ K c.toReal + x * acc) 0

@[simp] theorem eval_nil (x : K) : eval ([] : List (Quad d)) x = 0 := rfl

@[simp] theorem eval_cons (c : Quad d) (p : List (Quad d)) (x : K) :
    eval (c :: p) x = algebraMap ℝ K c.toReal + x * eval p x := rfl

@[simp] theorem eval_add (p q : List (Quad d)) (x : K) : eval (add p q) x = eval p x + eval q x := by
  induction p generalizing q with
  | nil => simp [add]
  | cons a p ih =>
    cases q with
    | nil => simp [add]
    | cons b q => simp only [add, eval_cons, ih, Quad.toReal_add, map_add]; ring

@[simp] theorem eval_smul (a : Quad d) (p : List (Quad d)) (x : K) :
    eval (smul a p) x = algebraMap ℝ K a.toReal * eval p x := by
  induction p with
  | nil => simp [smul]
  | cons b p ih =>
    have : smul a (b :: p) = (a * b) :: smul a p := rfl
    rw [this, eval_cons, ih, eval_cons, Quad.toReal_mul, map_mul]; ring

@[simp] theorem eval_mul (p q : List (Quad d)) (x : K) : eval (mul p q) x = eval p x * eval q x := by
  induction p with
  | nil => simp [mul]
  | cons a p ih =>
    simp only [mul, eval_add, eval_smul, eval_cons, ih, Quad.toReal_zero, map_zero]; ring

@[simp] theorem eval_sub (p q : List (Quad d)) (x : K) : eval (sub p q) x = eval p x - eval q x := by
  simp only [sub, eval_add, eval_smul, Quad.toReal_sub, Quad.toReal_zero, Quad.toReal_one, zero_sub, map_neg, map_one]
  ring

theorem eval_isZero {p : List (Quad d)} (h : isZero p = true) (x : K) : eval p x = 0 := by
  induction p with
  | nil => rfl
  | cons a p ih =>
    simp only [isZero, List.all_cons, Bool.and_eq_true, decide_eq_true_eq] at h
    rw [eval_cons, ih h.2, h.1]; simp

theorem eval_lincomb (a : List (Quad d)) (p : List (List (Quad d))) (x : K) (n : ℕ) (hn : a.length ≤ n) :
    eval (lincomb a p) x = ∑ j : Fin n, algebraMap ℝ K (a.getD j 0).toReal * eval (p.getD j []) x := by
  induction a generalizing p n with
  | nil => simp [lincomb]
  | cons b a ih =>
    obtain ⟨n, rfl⟩ : ∃ m, n = m + 1 := ⟨n - 1, by simp at hn; omega⟩
    cases p with
    | nil => simp [lincomb]
    | cons q p =>
      have h : lincomb (b :: a) (q :: p) = add (smul b q) (lincomb a p) := rfl
      rw [h, eval_add, eval_smul, ih p n (by simpa using hn), Fin.sum_univ_succ]
      simp

theorem eval_parts (p : List (Quad d)) (x : K) :
    eval p x = eval (parts p).1 (x ^ 2) + x * eval (parts p).2 (x ^ 2) := by
  induction p with
  | nil => simp [parts]
  | cons a p ih => simp only [parts, eval_cons, ih]; ring

@[simp] theorem eval_alt (p : List (Quad d)) (x : K) : eval (alt p) x = eval p (-x) := by
  induction p with
  | nil => rfl
  | cons a p ih =>
    simp only [alt, eval_cons, eval_smul, ih, Quad.toReal_sub, Quad.toReal_zero, Quad.toReal_one, zero_sub, map_neg,
      map_one]
    ring

end eval

theorem eval_ofReal (p : List (Quad d)) (x : ℝ) : eval p (x : ℂ) = ((eval p x : ℝ) : ℂ) := by
  induction p with
  | nil => simp
  | cons a p ih => simp [ih]

/-- `|p(iy)|²`. -/
theorem normSq_eval (p : List (Quad d)) (y : ℝ) :
    ‖eval p (y * Complex.I : ℂ)‖ ^ 2 = eval (normSq p) (y ^ 2 : ℝ) := by
  have h : ((y : ℂ) * Complex.I) ^ 2 = ((-(y ^ 2) : ℝ) : ℂ) := by
    rw [mul_pow, Complex.I_sq]; push_cast; ring
  rw [eval_parts, h, eval_ofReal, eval_ofReal, ← Complex.normSq_eq_norm_sq, normSq]
  have e : ((eval (parts p).1 (-(y ^ 2)) : ℝ) : ℂ) + y * Complex.I * ((eval (parts p).2 (-(y ^ 2)) : ℝ) : ℂ) =
      ((eval (parts p).1 (-(y ^ 2)) : ℝ) : ℂ) + ((y * eval (parts p).2 (-(y ^ 2)) : ℝ) : ℂ) * Complex.I := by
    push_cast; ring
  rw [e, Complex.normSq_add_mul_I]
  simp only [eval_add, eval_mul, eval_alt, eval_cons, Quad.toReal_zero, map_zero, zero_add]
  ring

/-- Sufficient test for a non-negative number. -/
def nonneg (x : Quad d) : Bool := 0 ≤ x.a + x.b * Quad.sqrtLo d - |x.b| * (1 / 10 ^ 30)

theorem eval_nonneg (hd : d = 2 ∨ d = 3) {p : List (Quad d)} (h : p.all nonneg = true) {t : ℝ} (ht : 0 ≤ t) :
    0 ≤ eval p t := by
  induction p with
  | nil => simp
  | cons a p ih =>
    simp only [List.all_cons, Bool.and_eq_true] at h
    rw [eval_cons]
    exact add_nonneg (Quad.nonneg_sound hd (of_decide_eq_true h.1)) (mul_nonneg ht (ih h.2))

/-- `c t^k (t - r)^2`. -/
def square (k : ℕ) (r c : ℚ) : List (Quad d) :=
  List.replicate k 0 ++ [⟨c * r ^ 2, 0⟩, ⟨-2 * c * r, 0⟩, ⟨c, 0⟩]

theorem eval_square (k : ℕ) (r c : ℚ) (t : ℝ) : eval (square k r c : List (Quad d)) t = c * t ^ k * (t - r) ^ 2 := by
  induction k with
  | zero =>
    simp [square, Quad.toReal]; ring
  | succ k ih =>
    have : (square (k + 1) r c : List (Quad d)) = 0 :: square k r c := rfl
    rw [this, eval_cons, ih]
    simp; ring

/-- Test: `p` has non-negative coefficients after subtracting `c t^k (t - r)^2`. -/
def nonnegCert (p : List (Quad d)) (k : ℕ) (r c : ℚ) : Bool := 0 ≤ c && (sub p (square k r c)).all nonneg

theorem nonnegCert_sound (hd : d = 2 ∨ d = 3) {p : List (Quad d)} {k : ℕ} {r c : ℚ}
    (h : nonnegCert p k r c = true) {t : ℝ} (ht : 0 ≤ t) : 0 ≤ eval p t := by
  simp only [nonnegCert, Bool.and_eq_true, decide_eq_true_eq] at h
  have h1 := eval_nonneg hd h.2 ht
  rw [eval_sub, eval_square] at h1
  have h2 : (0:ℝ) ≤ c := by exact_mod_cast h.1
  have : 0 ≤ (c:ℝ) * t ^ k * (t - r) ^ 2 := by positivity
  linarith

/-! ## Bounds -/

theorem norm_eval_le (p : List (Quad d)) :
    ∃ C : ℝ, 0 ≤ C ∧ ∀ z : ℂ, ‖eval p z‖ ≤ C * (1 + ‖z‖) ^ (p.length - 1) := by
  induction p with
  | nil => exact ⟨0, le_rfl, fun z => by simp⟩
  | cons a p ih =>
    obtain ⟨C, hC, h⟩ := ih
    refine ⟨|a.toReal| + C, by positivity, fun z => ?_⟩
    have h1 : 1 ≤ 1 + ‖z‖ := by linarith [norm_nonneg z]
    rw [eval_cons]
    have h2 : ‖(algebraMap ℝ ℂ) a.toReal‖ = |a.toReal| := by simp
    refine (norm_add_le _ _).trans ?_
    rw [h2, norm_mul, List.length_cons, Nat.add_sub_cancel]
    rcases p with _ | ⟨b, p⟩
    · simp; exact hC
    · have h3 := h z
      rw [List.length_cons, Nat.add_sub_cancel] at h3
      rw [List.length_cons, add_mul]
      refine add_le_add (le_mul_of_one_le_right (abs_nonneg _) (one_le_pow₀ h1)) ?_
      calc ‖z‖ * ‖eval (b :: p) z‖ ≤ (1 + ‖z‖) * (C * (1 + ‖z‖) ^ p.length) :=
            mul_le_mul (by linarith) h3 (norm_nonneg _) (by positivity)
        _ = C * (1 + ‖z‖) ^ (p.length + 1) := by ring

theorem eval_take {p : List (Quad d)} {m : ℕ} (h : isZero (p.drop m) = true) (z : ℂ) :
    eval p z = eval (p.take m) z := by
  induction p generalizing m with
  | nil => simp
  | cons a p ih =>
    cases m with
    | zero =>
      rw [List.drop_zero] at h
      rw [eval_isZero h]; rfl
    | succ m => rw [List.take_succ_cons, eval_cons, eval_cons, ih (by simpa using h)]

/-- A polynomial of degree at most `m`. -/
theorem norm_eval_le_of_degree {p : List (Quad d)} {m : ℕ} (h : isZero (p.drop (m + 1)) = true) :
    ∃ C : ℝ, 0 ≤ C ∧ ∀ z : ℂ, ‖eval p z‖ ≤ C * (1 + ‖z‖) ^ m := by
  obtain ⟨C, hC, hb⟩ := norm_eval_le (p.take (m + 1))
  refine ⟨C, hC, fun z => ?_⟩
  rw [eval_take h]
  refine (hb z).trans (mul_le_mul_of_nonneg_left ?_ hC)
  refine pow_le_pow_right₀ (by linarith [norm_nonneg z]) ?_
  rw [List.length_take]; omega

/-- The value at a rational number. -/
def evalRat (p : List (Quad d)) (t : ℚ) : Quad d := p.foldr (fun a v => a + ⟨t, 0⟩ * v) 0

theorem eval_rat (p : List (Quad d)) (t : ℚ) : eval (K := ℝ) p (t : ℝ) = (evalRat p t).toReal := by
  induction p with
  | nil => simp [evalRat]
  | cons a p ih =>
    have : evalRat (a :: p) t = a + ⟨t, 0⟩ * evalRat p t := rfl
    rw [eval_cons, this, Quad.toReal_add, Quad.toReal_mul, ← ih]
    simp [Quad.toReal]

theorem eval_differentiable (p : List (Quad d)) : Differentiable ℂ fun z : ℂ => eval p z := by
  induction p with
  | nil => exact differentiable_const _
  | cons a p ih => simp only [eval_cons]; fun_prop

end QPoly

/-- A linear factor on the left half plane. -/
theorem factor_bounds {a : ℝ} (ha : 0 ≤ a) {z : ℂ} (hz : z.re ≤ 0) : 1 ≤ ‖1 - a * z‖ ∧ a * ‖z‖ ≤ ‖1 - a * z‖ := by
  have h : ‖1 - (a:ℂ) * z‖ ^ 2 = 1 - 2 * a * z.re + (a * ‖z‖) ^ 2 := by
    rw [← Complex.normSq_eq_norm_sq, mul_pow, ← Complex.normSq_eq_norm_sq, Complex.normSq_apply, Complex.normSq_apply]
    simp
    ring
  have h1 : 0 ≤ -(a * z.re) := by nlinarith
  constructor
  · refine le_of_sq_le_sq ?_ (norm_nonneg _)
    rw [h]; nlinarith [sq_nonneg (a * ‖z‖)]
  · refine le_of_sq_le_sq ?_ (norm_nonneg _)
    rw [h]; nlinarith

namespace QPoly

variable {d : ℕ}

/-- Sufficient test for a positive number. -/
def pos (x : Quad d) : Bool := 0 < x.a + x.b * Quad.sqrtLo d - |x.b| * (1 / 10 ^ 30)

theorem pos_sound (hd : d = 2 ∨ d = 3) {x : Quad d} (h : pos x = true) : 0 < x.toReal := by
  have h := (Rat.cast_lt (K := ℝ)).mpr (of_decide_eq_true h)
  have h1 := (abs_le.mp (Quad.dist_lo hd x)).1
  rw [Rat.cast_sub, Rat.cast_zero] at h
  linarith

/-- `∏ (1 - a_i x)`. -/
def factors (l : List (Quad d)) : List (Quad d) := l.foldr (fun a p => mul [1, 0 - a] p) [1]

theorem eval_factors_cons (a : Quad d) (l : List (Quad d)) (z : ℂ) :
    eval (factors (a :: l)) z = (1 - a.toReal * z) * eval (factors l) z := by
  have : factors (a :: l) = mul [1, 0 - a] (factors l) := rfl
  rw [this, eval_mul]
  congr 1
  simp
  ring

/-- The product of the linear factors on the left half plane. -/
theorem factors_bounds (hd : d = 2 ∨ d = 3) (l : List (Quad d)) (h : (l.all fun a => pos a || a = 0) = true) :
    (∀ z : ℂ, z.re ≤ 0 → eval (factors l) z ≠ 0) ∧
    ∃ C : ℝ, 0 < C ∧ ∀ z : ℂ, z.re ≤ 0 → (1 + ‖z‖) ^ (l.filter pos).length ≤ C * ‖eval (factors l) z‖ := by
  induction l with
  | nil => exact ⟨fun z _ => by simp [factors], 1, one_pos, fun z _ => by simp [factors]⟩
  | cons a l ih =>
    simp only [List.all_cons, Bool.and_eq_true, Bool.or_eq_true, decide_eq_true_eq] at h
    obtain ⟨h1, C, hC, h2⟩ := ih h.2
    have ha : 0 ≤ a.toReal := by
      rcases h.1 with h | h
      · exact (pos_sound hd h).le
      · rw [h]; simp
    refine ⟨fun z hz => ?_, C * (1 + a.toReal⁻¹), by have := inv_nonneg.mpr ha; positivity, fun z hz => ?_⟩
    · rw [eval_factors_cons]
      refine mul_ne_zero (fun h0 => ?_) (h1 z hz)
      have := (factor_bounds ha hz).1
      rw [h0, norm_zero] at this
      linarith
    · obtain ⟨h3, h4⟩ := factor_bounds ha hz
      have hinv := inv_nonneg.mpr ha
      have hle : (1 + ‖z‖) ^ (l.filter pos).length ≤ C * ‖eval (factors l) z‖ := h2 z hz
      rw [eval_factors_cons, norm_mul, List.filter_cons]
      by_cases hp : pos a = true
      · have hpos := pos_sound hd hp
        rw [if_pos hp, List.length_cons, pow_succ]
        have h5 : 1 + ‖z‖ ≤ (1 + a.toReal⁻¹) * ‖1 - a.toReal * z‖ := by
          rw [add_mul, one_mul]
          refine add_le_add h3 ?_
          rw [← div_eq_inv_mul, le_div_iff₀ hpos]
          linarith
        calc (1 + ‖z‖) ^ (l.filter pos).length * (1 + ‖z‖)
            ≤ C * ‖eval (factors l) z‖ * ((1 + a.toReal⁻¹) * ‖1 - a.toReal * z‖) :=
              mul_le_mul hle h5 (by positivity) (by positivity)
          _ = _ := by ring
      · rw [if_neg hp]
        refine hle.trans ?_
        have h6 : 1 ≤ (1 + a.toReal⁻¹) * ‖1 - a.toReal * z‖ := by nlinarith
        calc C * ‖eval (factors l) z‖ = C * ‖eval (factors l) z‖ * 1 := (mul_one _).symm
          _ ≤ C * ‖eval (factors l) z‖ * ((1 + a.toReal⁻¹) * ‖1 - a.toReal * z‖) :=
              mul_le_mul_of_nonneg_left h6 (by positivity)
          _ = _ := by ring

end QPoly

/-- Bounded on the imaginary axis and of the right degree: bounded by the same constant on the left half plane. -/
theorem left_half_plane {f : ℂ → ℂ} {C B : ℝ} (hd : ∀ z : ℂ, z.re ≤ 0 → DifferentiableAt ℂ f z)
    (hB : ∀ z : ℂ, z.re ≤ 0 → ‖f z‖ ≤ B) (him : ∀ y : ℝ, ‖f (y * Complex.I)‖ ≤ C) {z : ℂ} (hz : z.re ≤ 0) :
    ‖f z‖ ≤ C := by
  have key : ‖(fun w : ℂ => f (-w)) (-z)‖ ≤ C := by
    refine PhragmenLindelof.right_half_plane_of_bounded_on_real (f := fun w : ℂ => f (-w)) ?_ ?_ ?_ ?_ (by simpa using hz)
    · have hdiff : ∀ w : ℂ, 0 ≤ w.re → DifferentiableAt ℂ (fun w : ℂ => f (-w)) w := fun w hw => by
        have := hd (-w) (by simpa using hw)
        exact DifferentiableAt.comp w this differentiableAt_id.neg
      refine DifferentiableOn.diffContOnCl fun w hw => ?_
      have hcl : closure {z : ℂ | 0 < z.re} ⊆ {z : ℂ | 0 ≤ z.re} :=
        closure_minimal (fun w (hw : 0 < w.re) => show 0 ≤ w.re from hw.le) (isClosed_le continuous_const Complex.continuous_re)
      exact (hdiff w (hcl hw)).differentiableWithinAt
    · refine ⟨1, by norm_num, 0, ?_⟩
      refine Asymptotics.IsBigO.of_bound B ?_
      refine Filter.eventually_inf_principal.mpr (Filter.Eventually.of_forall fun w hw => ?_)
      simpa using hB (-w) (by simpa using le_of_lt hw)
    · refine Filter.isBoundedUnder_of_eventually_le (a := B) (Filter.eventually_atTop.mpr ⟨0, fun x hx => ?_⟩)
      exact hB _ (by simpa using hx)
    · intro x
      have := him (-x)
      simpa using this
  simpa using key

/-- The stability function from stage values over a common denominator. -/
theorem stab_eq_of_stages {s : ℕ} (A : Matrix (Fin s) (Fin s) ℝ) (b : Fin s → ℝ) (N : Fin s → ℂ) {D z : ℂ}
    (hN : ∀ i, N i = D + z * ∑ j, (A i j : ℂ) * N j) (hdet : (1 - z • A.map Complex.ofReal).det ≠ 0) (hD : D ≠ 0) :
    stabilityFunction A b z = (D + z * ∑ j, (b j : ℂ) * N j) / D := by
  have hx1 : (1 - z • A.map Complex.ofReal) *ᵥ (fun i => N i / D) = fun _ => 1 := by
    funext i
    rw [sub_mulVec, one_mulVec, smul_mulVec, Pi.sub_apply, Pi.smul_apply, smul_eq_mul]
    have h3 : (A.map Complex.ofReal *ᵥ fun i => N i / D) i = (∑ j, (A i j : ℂ) * N j) / D := by
      rw [Finset.sum_div]
      change ∑ j, (A i j : ℂ) * (N j / D) = _
      exact Finset.sum_congr rfl fun j _ => (mul_div_assoc (A i j : ℂ) (N j) D).symm
    rw [h3]
    field_simp
    linear_combination hN i
  have hinv : (1 - z • A.map Complex.ofReal)⁻¹ *ᵥ (fun _ => 1) = fun i => N i / D := by
    rw [← hx1, mulVec_mulVec, Matrix.nonsing_inv_mul _ (isUnit_iff_ne_zero.mpr hdet), one_mulVec]
  unfold stabilityFunction
  rw [hinv, add_div, div_self hD, mul_div_assoc, Finset.sum_div]
  congr 2
  exact Finset.sum_congr rfl fun j _ => (mul_div_assoc (b j : ℂ) (N j) D).symm

namespace RKTable

variable (T : RKTable)

/-- The diagonal of `A`. -/
def diag : List (Quad T.d) := (List.range T.c.length).map fun i => (T.A.getD i []).getD i 0

/-- Denominator of the stability function of a diagonally implicit scheme. -/
def stabD : List (Quad T.d) := QPoly.factors T.diag

/-- Numerators of the stages over that denominator.  Nothing is proved about this computation, its result is checked
by `stagesOk`. -/
def stabN : List (List (Quad T.d)) :=
  ((List.range T.c.length).foldl (fun (st : List (Quad T.d) × List (List (Quad T.d))) i =>
    let row := T.A.getD i []
    let fac := [1, 0 - row.getD i 0]
    (QPoly.mul fac st.1, st.2.map (QPoly.mul fac) ++ [QPoly.add st.1 (0 :: QPoly.lincomb row st.2)])) ([1], [])).2

/-- The numerators `N_i` solve `N_i - z ∑ A_ij N_j = D`. -/
def stagesOk : Bool := (List.range T.c.length).all fun i =>
  QPoly.isZero (QPoly.sub (T.stabN.getD i []) (QPoly.add T.stabD (0 :: QPoly.lincomb (T.A.getD i []) T.stabN)))

/-- Numerator of the stability function with weights `b`. -/
def stabP (b : List (Quad T.d)) : List (Quad T.d) := QPoly.add T.stabD (0 :: QPoly.lincomb b T.stabN)

theorem stab_eq (h : T.shapesOk = true) (hst : T.stagesOk = true) (b : List (Quad T.d)) (hb : b.length = T.c.length)
    {z : ℂ} (hdet : (1 - z • T.toRK.A.map Complex.ofReal).det ≠ 0) (hD : QPoly.eval T.stabD z ≠ 0) :
    stabilityFunction T.toRK.A (fun i : Fin T.c.length => (b.getD i 0).toReal) z =
      QPoly.eval (T.stabP b) z / QPoly.eval T.stabD z := by
  simp only [shapesOk, Bool.and_eq_true, decide_eq_true_eq, List.all_eq_true] at h
  refine (stab_eq_of_stages (s := T.c.length) T.toRK.A _ (fun i => QPoly.eval (T.stabN.getD i []) z)
    (fun i => ?_) hdet hD).trans ?_
  · have hi : (i : ℕ) < T.c.length := i.isLt
    have hA : (i:ℕ) < T.A.length := by rw [h.1.2]; exact hi
    have h1 := List.all_eq_true.mp hst i (List.mem_range.mpr hi)
    have h2 := QPoly.eval_isZero (K := ℂ) h1 z
    rw [QPoly.eval_sub, QPoly.eval_add, QPoly.eval_cons, QPoly.eval_lincomb _ _ _ T.c.length (by
      rw [getD_of_lt _ _ hA]; exact (h.2 _ (List.getElem_mem hA)).le)] at h2
    simp only [Quad.toReal_zero, map_zero, zero_add] at h2
    exact sub_eq_zero.mp h2
  · rw [stabP, QPoly.eval_add, QPoly.eval_cons, QPoly.eval_lincomb _ _ _ T.c.length hb.le]
    simp only [Quad.toReal_zero, map_zero, zero_add, Complex.coe_algebraMap]

/-- Test for `|R(z)| ≤ 1 + ε` on the left half plane: stages, diagonal, degree, and `(1+ε)²|D(iy)|² - |P(iy)|²` with
the certificate `c t^k (t - r)^2`. -/
def stabOk (b : List (Quad T.d)) (ε : ℚ) (k : ℕ) (r c : ℚ) : Bool :=
  T.stagesOk && (T.diag.all fun a => QPoly.pos a || a = 0) &&
  QPoly.isZero ((T.stabP b).drop ((T.diag.filter QPoly.pos).length + 1)) && 0 ≤ ε &&
  QPoly.nonnegCert (QPoly.sub (QPoly.smul ⟨(1 + ε) ^ 2, 0⟩ (QPoly.normSq T.stabD)) (QPoly.normSq (T.stabP b))) k r c

theorem stabOk_sound (hd : T.d = 2 ∨ T.d = 3) (h : T.shapesOk = true) (b : List (Quad T.d))
    (hb : b.length = T.c.length) {ε : ℚ} {k : ℕ} {r c : ℚ} (hok : T.stabOk b ε k r c = true)
    (hdet : ∀ z : ℂ, z.re ≤ 0 → (1 - z • T.toRK.A.map Complex.ofReal).det ≠ 0) {z : ℂ} (hz : z.re ≤ 0) :
    ‖stabilityFunction T.toRK.A (fun i : Fin T.c.length => (b.getD i 0).toReal) z‖ ≤ 1 + ε := by
  simp only [stabOk, Bool.and_eq_true, decide_eq_true_eq] at hok
  obtain ⟨⟨⟨⟨hst, hdi⟩, hdeg⟩, hε⟩, hcert⟩ := hok
  have hε' : (0:ℝ) ≤ ε := by exact_mod_cast hε
  obtain ⟨hD, C, hC, hb1⟩ := QPoly.factors_bounds hd T.diag hdi
  change ∀ z : ℂ, z.re ≤ 0 → QPoly.eval T.stabD z ≠ 0 at hD
  obtain ⟨C', hC', hb2⟩ := QPoly.norm_eval_le_of_degree hdeg
  rw [T.stab_eq h hst b hb (hdet z hz) (hD z hz)]
  refine left_half_plane (f := fun z => QPoly.eval (T.stabP b) z / QPoly.eval T.stabD z) (B := C' * C)
    (fun w hw => ?_) (fun w hw => ?_) (fun y => ?_) hz
  · exact (QPoly.eval_differentiable _ w).div (QPoly.eval_differentiable _ w) (hD w hw)
  · rw [norm_div, div_le_iff₀ (norm_pos_iff.mpr (hD w hw)), mul_assoc]
    exact (hb2 w).trans (mul_le_mul_of_nonneg_left (hb1 w hw) hC')
  · have hI : ((y : ℂ) * Complex.I).re ≤ 0 := by simp
    rw [norm_div, div_le_iff₀ (norm_pos_iff.mpr (hD _ hI))]
    refine le_of_sq_le_sq ?_ (by positivity)
    have h1 := QPoly.nonnegCert_sound hd hcert (sq_nonneg y)
    rw [QPoly.eval_sub, QPoly.eval_smul, ← QPoly.normSq_eval, ← QPoly.normSq_eval] at h1
    have h2 : (algebraMap ℝ ℝ) (⟨(1 + ε) ^ 2, 0⟩ : Quad T.d).toReal = (1 + (ε:ℝ)) ^ 2 := by
      simp [Quad.toReal]
    rw [h2] at h1
    rw [mul_pow]
    linarith

/-- Test for `|R(iy)| > 1` at `y = √t`. -/
def growOk (b : List (Quad T.d)) (t : ℚ) : Bool :=
  T.stagesOk && (T.diag.all fun a => QPoly.pos a || a = 0) && 0 ≤ t &&
  QPoly.pos (QPoly.evalRat (QPoly.sub (QPoly.normSq (T.stabP b)) (QPoly.normSq T.stabD)) t)

theorem growOk_sound (hd : T.d = 2 ∨ T.d = 3) (h : T.shapesOk = true) (b : List (Quad T.d))
    (hb : b.length = T.c.length) {t : ℚ} (hok : T.growOk b t = true)
    (hdet : ∀ z : ℂ, z.re ≤ 0 → (1 - z • T.toRK.A.map Complex.ofReal).det ≠ 0) :
    1 < ‖stabilityFunction T.toRK.A (fun i : Fin T.c.length => (b.getD i 0).toReal)
      ((Real.sqrt t : ℝ) * Complex.I)‖ := by
  simp only [growOk, Bool.and_eq_true, decide_eq_true_eq] at hok
  obtain ⟨⟨⟨hst, hdi⟩, ht⟩, hpos⟩ := hok
  obtain ⟨hD, -⟩ := QPoly.factors_bounds hd T.diag hdi
  change ∀ z : ℂ, z.re ≤ 0 → QPoly.eval T.stabD z ≠ 0 at hD
  have hI : (((Real.sqrt t : ℝ) : ℂ) * Complex.I).re ≤ 0 := by simp
  have ht' : (0:ℝ) ≤ t := by exact_mod_cast ht
  rw [T.stab_eq h hst b hb (hdet _ hI) (hD _ hI), norm_div, one_lt_div (norm_pos_iff.mpr (hD _ hI))]
  refine lt_of_pow_lt_pow_left₀ 2 (norm_nonneg _) ?_
  rw [QPoly.normSq_eval, QPoly.normSq_eval, Real.sq_sqrt ht', ← sub_pos, ← QPoly.eval_sub, QPoly.eval_rat]
  exact QPoly.pos_sound hd hpos

/-- Test for `R(z) → ρ`: `P - ρ D` has degree smaller than `D`. -/
def limitOk (b : List (Quad T.d)) (ρ : ℚ) : Bool :=
  T.stagesOk && (T.diag.all fun a => QPoly.pos a || a = 0) && 1 ≤ (T.diag.filter QPoly.pos).length &&
  QPoly.isZero ((QPoly.sub (T.stabP b) (QPoly.smul ⟨ρ, 0⟩ T.stabD)).drop (T.diag.filter QPoly.pos).length)

theorem limitOk_sound (hd : T.d = 2 ∨ T.d = 3) (h : T.shapesOk = true) (b : List (Quad T.d))
    (hb : b.length = T.c.length) {ρ : ℚ} (hok : T.limitOk b ρ = true)
    (hdet : ∀ z : ℂ, z.re ≤ 0 → (1 - z • T.toRK.A.map Complex.ofReal).det ≠ 0) :
    ∃ C : ℝ, ∀ z : ℂ, z.re ≤ 0 →
      ‖stabilityFunction T.toRK.A (fun i : Fin T.c.length => (b.getD i 0).toReal) z - ρ‖ ≤ C / (1 + ‖z‖) := by
  simp only [limitOk, Bool.and_eq_true, decide_eq_true_eq] at hok
  obtain ⟨⟨⟨hst, hdi⟩, hm⟩, hdeg⟩ := hok
  obtain ⟨hD, C, hC, hb1⟩ := QPoly.factors_bounds hd T.diag hdi
  change ∀ z : ℂ, z.re ≤ 0 → QPoly.eval T.stabD z ≠ 0 at hD
  obtain ⟨m, hm'⟩ : ∃ m, (T.diag.filter QPoly.pos).length = m + 1 := ⟨_, (Nat.sub_add_cancel hm).symm⟩
  rw [hm'] at hdeg hb1
  obtain ⟨C', hC', hb2⟩ := QPoly.norm_eval_le_of_degree hdeg
  refine ⟨C' * C, fun z hz => ?_⟩
  have h1 : 0 < 1 + ‖z‖ := by positivity
  have hDz := hD z hz
  rw [T.stab_eq h hst b hb (hdet z hz) hDz]
  have e : QPoly.eval (T.stabP b) z / QPoly.eval T.stabD z - ρ =
      QPoly.eval (QPoly.sub (T.stabP b) (QPoly.smul ⟨ρ, 0⟩ T.stabD)) z / QPoly.eval T.stabD z := by
    rw [QPoly.eval_sub, QPoly.eval_smul, sub_div, mul_div_assoc, div_self hDz]
    simp [Quad.toReal]
  rw [e, norm_div, div_le_div_iff₀ (norm_pos_iff.mpr hDz) h1]
  have h3 := mul_le_mul_of_nonneg_right (hb2 z) h1.le
  have h4 := mul_le_mul_of_nonneg_left (hb1 z hz) hC'
  change C' * (1 + ‖z‖) ^ (m + 1) ≤ C' * (C * ‖QPoly.eval T.stabD z‖) at h4
  rw [pow_succ] at h4
  linarith

end RKTable

/-- The stability function of an explicit scheme is a polynomial. -/
theorem explicit_stab {s : ℕ} (A : Matrix (Fin s) (Fin s) ℝ) (b : Fin s → ℝ) (hA : ∀ i j, i ≤ j → A i j = 0) (z : ℂ) :
    stabilityFunction A b z =
      (1 + ∑ k ∈ Finset.range s, Polynomial.C ((b ⬝ᵥ ((A ^ k) *ᵥ fun _ => 1) : ℝ) : ℂ) * Polynomial.X ^ (k + 1)).eval z := by
  have hN : A ^ s = 0 := by
    have h1 : Aᵀ ^ s = 0 := pow_eq_zero_of_strictUpper fun i j hij => hA j i hij
    rw [← Matrix.transpose_pow] at h1
    simpa using congrArg Matrix.transpose h1
  set Ac : Matrix (Fin s) (Fin s) ℂ := A.map Complex.ofReal with hAc
  have hpow : ∀ k, Ac ^ k = (A ^ k).map Complex.ofReal := fun k => by
    have := map_pow (Complex.ofRealHom.mapMatrix (m := Fin s)) A k
    exact this.symm
  have hinv : (1 - z • Ac)⁻¹ = ∑ k ∈ Finset.range s, (z • Ac) ^ k := by
    refine Matrix.inv_eq_right_inv ?_
    rw [mul_neg_geom_sum, smul_pow, hpow, hN]
    simp
  unfold stabilityFunction
  rw [← hAc, hinv, Polynomial.eval_add, Polynomial.eval_one, Polynomial.eval_finset_sum]
  congr 1
  have h1 : ∀ i, ((∑ k ∈ Finset.range s, (z • Ac) ^ k) *ᵥ fun _ => 1) i =
      ∑ k ∈ Finset.range s, z ^ k * (((A ^ k) *ᵥ fun _ => 1) i : ℝ) := by
    intro i
    rw [Matrix.sum_mulVec, Finset.sum_apply]
    refine Finset.sum_congr rfl fun k _ => ?_
    rw [smul_pow, smul_mulVec, Pi.smul_apply, smul_eq_mul, hpow]
    congr 1
    simp [Matrix.mulVec, dotProduct]
  simp only [h1, Finset.mul_sum]
  rw [Finset.sum_comm]
  refine Finset.sum_congr rfl fun k _ => ?_
  simp only [dotProduct, Polynomial.eval_mul, Polynomial.eval_C, Polynomial.eval_pow, Polynomial.eval_X,
    Complex.ofReal_sum, Complex.ofReal_mul, Finset.sum_mul]
  refine Finset.sum_congr rfl fun i _ => ?_
  ring

/-- An explicit scheme with `∑ b ≠ 0` is unbounded for large `z`. -/
theorem explicit_unbounded {s : ℕ} (A : Matrix (Fin s) (Fin s) ℝ) (b : Fin s → ℝ) (hA : ∀ i j, i ≤ j → A i j = 0)
    (hb : ∑ i, b i ≠ 0) (K : ℝ) : ∃ B : ℝ, ∀ z : ℂ, B ≤ ‖z‖ → K ≤ ‖stabilityFunction A b z‖ := by
  set p : Polynomial ℂ := 1 + ∑ k ∈ Finset.range s,
    Polynomial.C ((b ⬝ᵥ ((A ^ k) *ᵥ fun _ => 1) : ℝ) : ℂ) * Polynomial.X ^ (k + 1) with hp
  have hs : 0 < s := by
    rcases Nat.eq_zero_or_pos s with rfl | h
    · simp at hb
    · exact h
  have hc : p.coeff 1 = ((∑ i, b i : ℝ) : ℂ) := by
    rw [hp, Polynomial.coeff_add, Polynomial.finset_sum_coeff, Finset.sum_eq_single 0]
    · simp [Polynomial.coeff_one, dotProduct]
    · intro k _ hk
      rw [Polynomial.coeff_C_mul_X_pow, if_neg (by omega)]
    · intro h; exact absurd (Finset.mem_range.mpr hs) h
  have hdeg : 0 < p.degree := by
    have h1 : p.coeff 1 ≠ 0 := by rw [hc]; exact_mod_cast hb
    exact lt_of_lt_of_le (by norm_num) (Polynomial.le_degree_of_ne_zero h1)
  have ht := p.tendsto_norm_atTop hdeg (l := Bornology.cobounded ℂ) (z := id) tendsto_norm_cobounded_atTop
  have hev := ht.eventually_ge_atTop K
  rw [← comap_norm_atTop, Filter.eventually_comap] at hev
  obtain ⟨B, hB⟩ := Filter.eventually_atTop.mp hev
  refine ⟨B, fun z hz => ?_⟩
  rw [explicit_stab A b hA]
  exact hB ‖z‖ hz z rfl

end QMat
