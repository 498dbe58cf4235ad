import Verif.Spec.ExactError
import Verif.Lemmas.ExactError
import Verif.Props.Stiff
import Verif.Props.FloatSDCCoeffs

/-!
# C102: the error against the exact solution, with explicit constants
-/

namespace QMat

open Polynomial Spec Matrix

variable {M : ℕ}

theorem collocationError_nonneg {y : ℝ} (hy : 0 ≤ y) (M p : ℕ) : 0 ≤ collocationError y M p := by
  unfold collocationError; positivity

theorem methodError_nonneg {y q : ℝ} (hy : 0 ≤ y) (hq : 0 ≤ q) (p : ℕ) : 0 ≤ methodError y q p := by
  unfold methodError; positivity

/-- C102: one step of collocation. -/
theorem C102_step {M : ℕ} (hM : M ≤ 158) {nt qt : String} (c : Collocation M) (hc : Collocation.new M nt qt 0 1 = .ok c) :
    ∃ p, c.order = some p ∧ M ≤ p ∧ ∀ z : ℂ, ‖z‖ ≤ 1 / 2 → (1 - z • c.Q.map Complex.ofReal).det ≠ 0 ∧
      ‖stabilityFunction c.Q c.weights z - Complex.exp z‖ ≤ collocationError ‖z‖ M p := by
  have hw : Wide M 0 1 := by
    have : (M:ℝ) ≤ 158 := by exact_mod_cast hM
    have h0 : (0:ℝ) ≤ M := by positivity
    unfold Wide
    norm_num
    nlinarith
  obtain ⟨p, ho, hp, hex⟩ := C28_quadrature_order hw c hc
  refine ⟨p, ho, hp, fun z hz => ?_⟩
  by_cases hz0 : z = 0
  · subst hz0
    refine ⟨by simp, ?_⟩
    rw [show stabilityFunction c.Q c.weights 0 - Complex.exp 0 = 0 by simp [stabilityFunction], norm_zero]
    exact collocationError_nonneg le_rfl _ _
  obtain ⟨-, hr, -, -⟩ := C24_collocation_nodes (by norm_num) c hc
  have horth : ∀ q : ℝ[X], q.degree < (p - M : ℕ) → ∫ t in (0:ℝ)..1, (q * Lagrange.nodal Finset.univ c.nodes).eval t = 0 := fun q hq => by
    have hN : (Lagrange.nodal Finset.univ c.nodes).degree ≤ M := by rw [Lagrange.degree_nodal]; simp
    have := degree_mul_lt hN hq
    rw [show M + (p - M) = p by omega, mul_comm] at this
    rw [← hex _ this]
    refine Finset.sum_eq_zero fun j _ => ?_
    rw [eval_mul, Lagrange.eval_nodal_at_node (Finset.mem_univ j)]
    ring
  obtain ⟨h0, hq⟩ := quotient_exp (fun i => (hr i).1) (fun i => (hr i).2) horth hz0 hz
  have hdet := stiff_det c hc hz0 h0
  refine ⟨hdet, ?_⟩
  have := hq _ (stiff_value c hc hz0 hdet)
  rw [show M + (p - M) + 1 = p + 1 by omega] at this
  exact this

/-- C102: one step of any method of order `p` for linear equations. -/
theorem C102_method {M : ℕ} (A : Matrix (Fin M) (Fin M) ℝ) (b : Fin M → ℝ) (p : ℕ) (h : LinearOrder A b p) (q : ℝ)
    (hq : ∀ i, ∑ j, |A i j| ≤ q) (hqb : ∑ j, |b j| ≤ q) (z : ℂ) (hz : ‖z‖ * q ≤ 1 / 2) (hz1 : ‖z‖ ≤ 1) :
    (1 - z • A.map Complex.ofReal).det ≠ 0 ∧ ‖stabilityFunction A b z - Complex.exp z‖ ≤ methodError ‖z‖ q p := by
  have hq0 : 0 ≤ q := (Finset.sum_nonneg fun _ _ => abs_nonneg _).trans hqb
  have hV := C97_small z A q hq0 hq (by linarith)
  have hdet : (1 - z • A.map Complex.ofReal).det ≠ 0 := Rounding.det_ne_zero_of_bounded hV
  refine ⟨hdet, ?_⟩
  set X : Fin M → ℂ := (1 - z • A.map Complex.ofReal)⁻¹ *ᵥ fun _ => 1 with hXd
  have hX : (1 - z • cmat A) *ᵥ X = fun _ => 1 := by
    change (1 - z • A.map Complex.ofReal) *ᵥ X = _
    rw [hXd, Matrix.mulVec_mulVec, Matrix.mul_nonsing_inv _ (isUnit_iff_ne_zero.2 hdet), Matrix.one_mulVec]
  have hXn : ‖X‖ ≤ 2 := by
    have h1 := hV X
    rw [hX] at h1
    have h2 : ‖(fun _ => 1 : Fin M → ℂ)‖ ≤ 1 := by rw [pi_norm_le_iff_of_nonneg zero_le_one]; simp
    refine h1.trans ((mul_le_of_le_one_right (one_div_nonneg.2 (by linarith)) h2).trans ?_)
    rw [div_le_iff₀ (by linarith)]
    linarith
  have hXs : X = (fun _ => 1) + z • (cmat A *ᵥ X) := by
    rw [← hX, Matrix.sub_mulVec, Matrix.one_mulVec, Matrix.smul_mulVec, sub_add_cancel]
  -- dot products with the weights
  set dot : (Fin M → ℂ) → ℂ := fun x => ∑ i, (b i : ℂ) * x i with hdot
  have hdadd : ∀ x y, dot (x + y) = dot x + dot y := fun x y => by
    simp only [hdot, Pi.add_apply, mul_add, Finset.sum_add_distrib]
  have hdsmul : ∀ (a : ℂ) x, dot (a • x) = a * dot x := fun a x => by
    simp only [hdot, Pi.smul_apply, smul_eq_mul, Finset.mul_sum]
    exact Finset.sum_congr rfl fun i _ => by ring
  have hdn : ∀ x, ‖dot x‖ ≤ q * ‖x‖ := fun x => by
    refine (norm_sum_le _ _).trans ?_
    refine le_trans ?_ (mul_le_mul_of_nonneg_right hqb (norm_nonneg x))
    rw [Finset.sum_mul]
    refine Finset.sum_le_sum fun i _ => ?_
    rw [norm_mul, Complex.norm_real, Real.norm_eq_abs]
    exact mul_le_mul_of_nonneg_left (norm_le_pi_norm x i) (abs_nonneg _)
  have hpow : ∀ k (y : Fin M → ℂ), ‖(cmat A ^ k) *ᵥ y‖ ≤ q ^ k * ‖y‖ := by
    intro k
    induction k with
    | zero => intro y; simp
    | succ k ih =>
      intro y
      rw [pow_succ', ← Matrix.mulVec_mulVec, pow_succ', mul_assoc]
      have h1 := mulVec_norm_le (A := A) (a := q) (z := 1) (fun i => by simpa using hq i) hq0 ((cmat A ^ k) *ᵥ y)
      rw [one_smul] at h1
      exact h1.trans (mul_le_mul_of_nonneg_left (ih y) hq0)
  have hmom : ∀ k, k < p → dot ((cmat A ^ k) *ᵥ fun _ => 1) = 1 / (k + 1).factorial := fun k hk => by
    have h1 := h k hk
    have e : cmat A ^ k = (A ^ k).map Complex.ofReal := ((Complex.ofRealHom.mapMatrix (m := Fin M)).map_pow A k).symm
    have e2 : ((b ⬝ᵥ ((A ^ k) *ᵥ fun _ => 1) : ℝ) : ℂ) = dot ((cmat A ^ k) *ᵥ fun _ => 1) := by
      rw [e]
      simp [hdot, dotProduct, Matrix.mulVec]
    rw [← e2, h1]
    push_cast
    rfl
  have hexp : ∀ m, m ≤ p → 1 + z * dot X = ∑ k ∈ Finset.range (m + 1), z ^ k / k.factorial + z ^ (m + 1) * dot ((cmat A ^ m) *ᵥ X) := by
    intro m
    induction m with
    | zero => intro _; simp
    | succ m ih =>
      intro hm
      rw [ih (by omega), Finset.sum_range_succ _ (m + 1)]
      have e1 : dot ((cmat A ^ m) *ᵥ X) = 1 / (m + 1).factorial + z * dot ((cmat A ^ (m + 1)) *ᵥ X) := by
        conv_lhs => rw [hXs]
        rw [Matrix.mulVec_add, hdadd, hmom m (by omega), Matrix.mulVec_smul, hdsmul, Matrix.mulVec_mulVec, ← pow_succ]
      rw [e1]
      ring
  have hR : stabilityFunction A b z = 1 + z * dot X := rfl
  rw [hR, hexp p le_rfl]
  have hb := Complex.exp_bound' (x := z) (n := p + 1) (by
    rw [div_le_iff₀ (by positivity)]
    have : (2:ℝ) ≤ ((p + 1).succ : ℕ) := by exact_mod_cast (by omega : 2 ≤ (p + 1).succ)
    linarith)
  rw [← norm_neg] at hb
  have e3 : ∑ k ∈ Finset.range (p + 1), z ^ k / k.factorial + z ^ (p + 1) * dot ((cmat A ^ p) *ᵥ X) - Complex.exp z =
      z ^ (p + 1) * dot ((cmat A ^ p) *ᵥ X) + -(Complex.exp z - ∑ k ∈ Finset.range (p + 1), z ^ k / k.factorial) := by ring
  rw [e3]
  refine (norm_add_le _ _).trans (add_le_add ?_ (hb.trans (le_of_eq (by ring))))
  rw [norm_mul, norm_pow]
  have h1 := (hdn ((cmat A ^ p) *ᵥ X)).trans (mul_le_mul_of_nonneg_left ((hpow p X).trans (mul_le_mul_of_nonneg_left hXn (by positivity))) hq0)
  refine (mul_le_mul_of_nonneg_left h1 (by positivity)).trans (le_of_eq ?_)
  rw [mul_pow, pow_succ q p]
  ring

/-- Powers of two factors. -/
theorem pow_near {s w : ℂ} {a L : ℝ} (ha : ‖w‖ = a) (hL : ‖s - w‖ ≤ L) (i : ℕ) : ‖s ^ i - w ^ i‖ ≤ (a + L) ^ i - a ^ i := by
  have ha0 : 0 ≤ a := ha ▸ norm_nonneg _
  have hs : ‖s‖ ≤ a + L := by
    have := norm_add_le (s - w) w
    rw [sub_add_cancel, ha] at this
    linarith
  induction i with
  | zero => simp
  | succ i ih =>
    have e : s ^ (i + 1) - w ^ (i + 1) = s * (s ^ i - w ^ i) + (s - w) * w ^ i := by ring
    rw [e]
    refine (norm_add_le _ _).trans ?_
    rw [norm_mul, norm_mul, norm_pow, ha]
    have h1 := mul_le_mul hs ih (norm_nonneg _) (by linarith [norm_nonneg s])
    have h2 := mul_le_mul_of_nonneg_right hL (pow_nonneg ha0 i)
    rw [pow_succ', pow_succ']
    linarith

theorem pow_sub_pow_mono {s t τ : ℝ} (hs0 : 0 ≤ s) (hst : s ≤ t) (hτ : 0 ≤ τ) (i : ℕ) : (s + τ) ^ i - s ^ i ≤ (t + τ) ^ i - t ^ i := by
  induction i with
  | zero => simp
  | succ i ih =>
    have h4 : (s + τ) ^ i ≤ (t + τ) ^ i := pow_le_pow_left₀ (by linarith) (by linarith) i
    have h5 : s * ((s + τ) ^ i - s ^ i) ≤ t * ((t + τ) ^ i - t ^ i) :=
      mul_le_mul hst ih (sub_nonneg.2 (pow_le_pow_left₀ hs0 (by linarith) i)) (by linarith)
    have h6 := mul_le_mul_of_nonneg_left h4 hτ
    rw [pow_succ', pow_succ', pow_succ', pow_succ']
    linarith

/-- A run near the powers of `s`, and the powers of `w`. -/
theorem run_near {s w u v : ℂ} {a L τ : ℝ} (ha : ‖w‖ = a) (hL : ‖s - w‖ ≤ L) (hτ : 0 ≤ τ) {i : ℕ}
    (h : ‖u - s ^ i * v‖ ≤ ((‖s‖ + τ) ^ i - ‖s‖ ^ i) * ‖v‖) : ‖u - w ^ i * v‖ ≤ ((a + (L + τ)) ^ i - a ^ i) * ‖v‖ := by
  have hs : ‖s‖ ≤ a + L := by
    have := norm_add_le (s - w) w
    rw [sub_add_cancel, ha] at this
    linarith
  have h1 := pow_near ha hL i
  have h2 := pow_sub_pow_mono (norm_nonneg s) hs hτ i
  have e : u - w ^ i * v = (u - s ^ i * v) + (s ^ i - w ^ i) * v := by ring
  rw [e]
  refine (norm_add_le _ _).trans ?_
  rw [norm_mul]
  have h3 := mul_le_mul_of_nonneg_right h1 (norm_nonneg v)
  have h4 := mul_le_mul_of_nonneg_right h2 (norm_nonneg v)
  rw [show a + (L + τ) = a + L + τ by ring]
  linarith

/-- The exact solution at the end of a step. -/
theorem exp_step_pow (lam : ℂ) (tEnd : ℝ) (n i : ℕ) :
    Complex.exp (lam * (tEnd / n : ℝ)) ^ i = Complex.exp (lam * (i * (tEnd / n) : ℝ)) := by
  rw [← Complex.exp_nat_mul]
  congr 1
  push_cast
  ring

theorem norm_exp_step (lam : ℂ) (tEnd : ℝ) (n : ℕ) : ‖Complex.exp (lam * (tEnd / n : ℝ))‖ = Real.exp (lam.re * (tEnd / n)) := by
  rw [Complex.norm_exp, Complex.mul_re, Complex.ofReal_re, Complex.ofReal_im, mul_zero, sub_zero]

/-- The values of `solveDahlquist` and its error, from the error of one step. -/
theorem solve_exact {M : ℕ} (g : QGenerator M) (lam u0 : ℂ) (tEnd : ℝ) (n : ℕ) (hn : 0 < n) {L : ℝ}
    (hdet : (1 - (lam * (tEnd / n : ℝ)) • g.Q.map Complex.ofReal).det ≠ 0)
    (hL : ‖stabilityFunction g.Q g.weights (lam * (tEnd / n : ℝ)) - Complex.exp (lam * (tEnd / n : ℝ))‖ ≤ L)
    (a A : ℝ) (ha : a = Real.exp (lam.re * (tEnd / n))) (hA1 : 1 ≤ A) (hA : a ≤ A) :
    ∃ l e, g.solveDahlquist lam u0 tEnd n = .ok l ∧ l.length = n + 1 ∧
      (∀ i (hi : i < l.length), ‖l[i] - u0 * Complex.exp (lam * (i * (tEnd / n) : ℝ))‖ ≤ ((a + L) ^ i - a ^ i) * ‖u0‖) ∧
      g.errorDahlquist lam u0 tEnd n = .ok e ∧ e ≤ ((A + L) ^ n - A ^ n) * ‖u0‖ := by
  have hex := C30_solveDahlquist g lam u0 tEnd n hn hdet
  have hL0 : 0 ≤ L := (norm_nonneg _).trans hL
  have ha0 : 0 ≤ a := ha ▸ (Real.exp_pos _).le
  have hval : ∀ i : ℕ, ‖stabilityFunction g.Q g.weights (lam * (tEnd / n : ℝ)) ^ i * u0 - u0 * Complex.exp (lam * (i * (tEnd / n) : ℝ))‖ ≤
      ((a + L) ^ i - a ^ i) * ‖u0‖ := fun i => by
    rw [← exp_step_pow, mul_comm u0, ← sub_mul, norm_mul]
    exact mul_le_mul_of_nonneg_right (pow_near ((norm_exp_step _ _ _).trans ha.symm) hL i) (norm_nonneg _)
  obtain ⟨e, he, -, hle⟩ := errorDahlquist_of_solve g lam u0 tEnd n false _ hex
  refine ⟨_, e, hex, by simp, fun i hi => by simpa using hval i, he, hle _ ?_ fun k hk => (hval k).trans ?_⟩
  · exact mul_nonneg (sub_nonneg.2 (pow_le_pow_left₀ (by linarith) (by linarith) n)) (norm_nonneg _)
  · refine mul_le_mul_of_nonneg_right ((pow_sub_pow_mono ha0 hA hL0 k).trans ?_) (norm_nonneg _)
    obtain ⟨d, rfl⟩ := Nat.exists_eq_add_of_le hk
    have h1 : A ^ k ≤ (A + L) ^ k := pow_le_pow_left₀ (by linarith) (by linarith) k
    have h2 : A ^ d ≤ (A + L) ^ d := pow_le_pow_left₀ (by linarith) (by linarith) d
    have h3 : 1 ≤ A ^ d := one_le_pow₀ hA1
    have h4 : 0 ≤ A ^ k := by positivity
    rw [pow_add, pow_add]
    have h5 := mul_le_mul_of_nonneg_left h2 (h4.trans h1)
    have h6 := mul_le_mul_of_nonneg_left h3 (sub_nonneg.2 h1)
    linarith

/-- C102: `solveDahlquist` and `errorDahlquist` with a collocation method. -/
theorem C102_solve {M : ℕ} (hM : M ≤ 158) {nt qt : String} (c : Collocation M) (hc : Collocation.new M nt qt 0 1 = .ok c) (lam u0 : ℂ) (tEnd : ℝ)
    (n : ℕ) (hn : 0 < n) (hz : ‖lam * (tEnd / n : ℝ)‖ ≤ 1 / 2) (a A : ℝ) (ha : a = Real.exp (lam.re * (tEnd / n))) (hA1 : 1 ≤ A) (hA : a ≤ A) :
    ∃ p L l e, c.order = some p ∧ L = collocationError ‖lam * (tEnd / n : ℝ)‖ M p ∧
      c.toQGenerator.solveDahlquist lam u0 tEnd n = .ok l ∧ l.length = n + 1 ∧
      (∀ i (hi : i < l.length), ‖l[i] - u0 * Complex.exp (lam * (i * (tEnd / n) : ℝ))‖ ≤ ((a + L) ^ i - a ^ i) * ‖u0‖) ∧
      c.toQGenerator.errorDahlquist lam u0 tEnd n = .ok e ∧ e ≤ ((A + L) ^ n - A ^ n) * ‖u0‖ := by
  obtain ⟨p, hp, -, h⟩ := C102_step hM c hc
  obtain ⟨hdet, hL⟩ := h _ hz
  obtain ⟨l, e, h⟩ := solve_exact c.toQGenerator lam u0 tEnd n hn hdet hL a A ha hA1 hA
  exact ⟨p, _, l, e, hp, rfl, h⟩

/-- C102: `solveDahlquist` and `errorDahlquist` with any method of order `p` for linear equations. -/
theorem C102_method_solve {M : ℕ} (g : QGenerator M) (p : ℕ) (h : LinearOrder g.Q g.weights p) (q : ℝ) (hq : ∀ i, ∑ j, |g.Q i j| ≤ q)
    (hqb : ∑ j, |g.weights j| ≤ q) (lam u0 : ℂ) (tEnd : ℝ) (n : ℕ) (hn : 0 < n) (hz : ‖lam * (tEnd / n : ℝ)‖ * q ≤ 1 / 2)
    (hz1 : ‖lam * (tEnd / n : ℝ)‖ ≤ 1) (a A L : ℝ) (ha : a = Real.exp (lam.re * (tEnd / n))) (hA1 : 1 ≤ A) (hA : a ≤ A)
    (hL : L = methodError ‖lam * (tEnd / n : ℝ)‖ q p) :
    ∃ l e, g.solveDahlquist lam u0 tEnd n = .ok l ∧ l.length = n + 1 ∧
      (∀ i (hi : i < l.length), ‖l[i] - u0 * Complex.exp (lam * (i * (tEnd / n) : ℝ))‖ ≤ ((a + L) ^ i - a ^ i) * ‖u0‖) ∧
      g.errorDahlquist lam u0 tEnd n = .ok e ∧ e ≤ ((A + L) ^ n - A ^ n) * ‖u0‖ := by
  obtain ⟨hdet, hstep⟩ := C102_method g.Q g.weights p h q hq hqb _ hz hz1
  exact solve_exact g lam u0 tEnd n hn hdet (hL ▸ hstep) a A ha hA1 hA

/-- Instance: ten steps of backward Euler for `u' = -u`. -/
example : ∃ l e, backwardEulerGen.solveDahlquist (-1) 1 1 (10 : ℕ) = .ok l ∧ l.length = 11 ∧
    backwardEulerGen.errorDahlquist (-1) 1 1 (10 : ℕ) = .ok e ∧ e ≤ (1 + 3 / 100) ^ 10 - 1 := by
  have hz : ‖(-1 : ℂ) * ((1 : ℝ) / (10 : ℕ) : ℝ)‖ = 1 / 10 := by
    rw [norm_mul, norm_neg, norm_one, Complex.norm_real]
    norm_num
  obtain ⟨l, e, hl, hlen, -, he, hle⟩ := C102_method_solve backwardEulerGen 1
    (by
      intro k hk
      have : k = 0 := by omega
      subst this
      simp [backwardEulerGen, dotProduct])
    1 (by intro i; fin_cases i; simp [backwardEulerGen]) (by simp [backwardEulerGen]) (-1) 1 1 10 (by norm_num) (by rw [hz]; norm_num)
    (by rw [hz]; norm_num) _ 1 _ rfl le_rfl (by rw [Real.exp_le_one_iff]; norm_num) rfl
  refine ⟨l, e, hl, hlen, he, hle.trans (le_of_eq ?_)⟩
  rw [hz, methodError]
  norm_num [Nat.factorial]

theorem pow_one_add_sub_one_le {L : ℝ} (hL : 0 ≤ L) (n : ℕ) : (1 + L) ^ n - 1 ≤ n * L * Real.exp (n * L) := by
  have h1 : (1 + L) ^ n ≤ Real.exp (n * L) := by
    rw [Real.exp_nat_mul]
    exact pow_le_pow_left₀ (by linarith) (by linarith [Real.add_one_le_exp L]) n
  have h2 := Real.add_one_le_exp (-(n * L))
  have h3 := mul_le_mul_of_nonneg_right h2 (Real.exp_pos (n * L)).le
  rw [← Real.exp_add, neg_add_cancel, Real.exp_zero] at h3
  linarith

/-- C102: the order of convergence with an explicit constant, for equations that do not grow. -/
theorem C102_order {M : ℕ} (hM : M ≤ 158) {nt qt : String} (c : Collocation M) (hc : Collocation.new M nt qt 0 1 = .ok c) (lam u0 : ℂ) (tEnd : ℝ)
    (hlam : lam.re * tEnd ≤ 0) (n : ℕ) (hn : 0 < n) (y : ℝ) (hy : y = ‖lam‖ * |tEnd|) (hz : y ≤ n / 2) :
    ∃ p e K, c.order = some p ∧ K = 6 * y ^ (p + 1) / (M.factorial * (p - M).factorial) ∧
      c.toQGenerator.errorDahlquist lam u0 tEnd n = .ok e ∧ e ≤ K / n ^ p * Real.exp (K / n ^ p) * ‖u0‖ := by
  have hn' : (0:ℝ) < n := by exact_mod_cast hn
  have hzn : ‖lam * (tEnd / n : ℝ)‖ = y / n := by
    rw [norm_mul, Complex.norm_real, Real.norm_eq_abs, abs_div, abs_of_pos hn', hy]; ring
  have hy0 : 0 ≤ y := hy ▸ by positivity
  have hzh : y / n ≤ 1 / 2 := by rw [div_le_iff₀ hn']; linarith
  obtain ⟨p, L, l, e, hp, hL, -, -, -, he, hle⟩ := C102_solve hM c hc lam u0 tEnd n hn (by rw [hzn]; exact hzh) _ 1 rfl le_rfl (by
    rw [Real.exp_le_one_iff, ← mul_div_assoc]
    exact div_nonpos_of_nonpos_of_nonneg hlam hn'.le)
  refine ⟨p, e, _, hp, rfl, he, ?_⟩
  rw [hzn] at hL
  have hL0 : 0 ≤ L := hL ▸ collocationError_nonneg (by positivity) _ _
  have hnL : n * L = 6 * y ^ (p + 1) / (M.factorial * (p - M).factorial) / n ^ p := by
    rw [hL, collocationError, div_pow, pow_succ (n:ℝ) p]
    field_simp
  refine hle.trans (mul_le_mul_of_nonneg_right ?_ (norm_nonneg _))
  rw [one_pow, ← hnL]
  exact pow_one_add_sub_one_le hL0 n

/-- C102: a collocation method computed and used in double precision, against the exact solution. -/
theorem C102_double {F : FejerOps} (E : NodeOps) (S : SolveOps) (hv : F.v ≤ 1 / 10 ^ 15) {m : ℕ} (hM : 0 < M) (hM' : M ≤ 100)
    (hm : m = M - (M + 1) % 2) (hη : 4 * F.κ / m + 4 * (1 + F.κ) * F.ρ / √m ≤ 1 / 10 ^ 15) {nt qt : String} {B : ℝ} (hB : LebesgueType nt qt M B)
    (hqt : qt ∈ QUAD_TYPES) (hn : ValidSize qt M) (hθ : E.θ ≤ 1 / 10 ^ 14) (hσ : E.σ ≤ 1 / 10 ^ 14) (hS : S.σ ≤ 1 / 1000)
    (lam u0 : ℂ) (tEnd : ℝ) (n : ℕ) (hn0 : 0 < n) (hz : ‖lam * (tEnd / n : ℝ)‖ * B ≤ 1 / 2) (e δ τ a : ℝ)
    (he : e = nodesErr double.u E.θ E.σ nt qt M) (hδ : δ = (M:ℝ) ^ 3 * B ^ 2 * (12 * e + 1 / 10 ^ 13))
    (hyδ : ‖lam * (tEnd / n : ℝ)‖ * δ ≤ 1 / 100) (hτ : τ = 12 * S.σ + 24 * (M + 3) * double.u + 5 * (‖lam * (tEnd / n : ℝ)‖ * δ))
    (ha : a = Real.exp (lam.re * (tEnd / n))) :
    ∃ c raw p L, Collocation.new M nt qt 0 1 = .ok c ∧ c.order = some p ∧ L = collocationError ‖lam * (tEnd / n : ℝ)‖ M p ∧
    double.getEigenvalues E ⟨nt, qt⟩ M = .ok raw ∧ (∃ nodes Q' w', double.CollocationArrays F qt hM raw 0 1 nodes Q' w') ∧
    ∀ nodes Q' w', double.CollocationArrays F qt hM raw 0 1 nodes Q' w' → ∀ r, double.SolveDahlquist S lam u0 tEnd n Q' ⟨M, w'⟩ r →
      ∃ l, r = .ok l ∧ l.length = n + 1 ∧ ∀ i (hi : i < l.length),
        ‖l[i] - u0 * Complex.exp (lam * (i * (tEnd / n) : ℝ))‖ ≤ ((a + (L + τ)) ^ i - a ^ i) * ‖u0‖ := by
  obtain ⟨c, raw, hc, hraw, hA0, hall⟩ := C97_double E S hv hM hM' hm hη hB hqt hn hθ hσ hS lam u0 tEnd n hn0 hz e δ τ he hδ hyδ hτ
  have hB1 := hB.one_le hM
  have hy := norm_nonneg (lam * (tEnd / n : ℝ))
  have hzh : ‖lam * (tEnd / n : ℝ)‖ ≤ 1 / 2 := (le_mul_of_one_le_right hy hB1).trans hz
  obtain ⟨p, hp, -, hstep⟩ := C102_step (by omega) c hc
  obtain ⟨hdet, hL⟩ := hstep _ hzh
  refine ⟨c, raw, p, _, hc, hp, rfl, hraw, hA0, fun nodes Q' w' hA r hr => ?_⟩
  obtain ⟨l, l', s, hl, hl', hs, hlen, hlen', hb, -⟩ := hall nodes Q' w' hA r hr
  refine ⟨l, hl, hlen, fun i hi => ?_⟩
  rw [C30_solveDahlquist c.toQGenerator lam u0 tEnd n hn0 hdet] at hl'
  cases hl'
  have h1 := hb i hi (by simpa using by omega)
  simp only [List.getElem_map, List.getElem_range] at h1
  rw [hs] at h1
  rw [← exp_step_pow, mul_comm u0]
  refine run_near ((norm_exp_step _ _ _).trans ha.symm) hL ?_ h1
  have h2 := S.σ_nonneg
  have h3 := double.u_nonneg
  have hen : 0 ≤ e := he ▸ nodesErr_nonneg double.u_nonneg E.θ_nonneg E.σ_nonneg nt qt M
  rw [hτ, hδ]
  positivity

/-- C102: SDC with collocation and QDelta coefficients computed in double precision and used in double precision, against the exact solution. -/
theorem C102_sdc_double {F : FejerOps} (E : NodeOps) (S : SolveOps) (hv : F.v ≤ 1 / 10 ^ 15) {m : ℕ} (hM : 0 < M) (hM' : M ≤ 100)
    (hm : m = M - (M + 1) % 2) (hη : 4 * F.κ / m + 4 * (1 + F.κ) * F.ρ / √m ≤ 1 / 10 ^ 15) {nt qt : String} {B : ℝ} (hB : LebesgueType nt qt M B)
    (hqt : qt ∈ QUAD_TYPES) (hn : ValidSize qt M) (hθ : E.θ ≤ 1 / 10 ^ 14) (hσ : E.σ ≤ 1 / 10 ^ 14) (hS : S.σ ≤ 1 / 1000)
    (cls : ℕ → NodeClass) (hcls : ∀ k, cls k ≠ .DNODES 0)
    (lam u0 : ℂ) (tEnd : ℝ) (n K : ℕ) (hn0 : 0 < n) (hz : ‖lam * (tEnd / n : ℝ)‖ * (B + 1) ≤ 1 / 4) (e δ τ a : ℝ)
    (he : e = nodesErr double.u E.θ E.σ nt qt M) (hδ : δ = (M:ℝ) ^ 3 * B ^ 2 * (12 * e + 1 / 10 ^ 13))
    (hyδ : ‖lam * (tEnd / n : ℝ)‖ * δ ≤ 1 / 1000) (hτ : τ = 16 * S.σ + 32 * (M + 3) * double.u + 16 * (‖lam * (tEnd / n : ℝ)‖ * δ))
    (ha : a = Real.exp (lam.re * (tEnd / n))) :
    ∃ c raw p L, Collocation.new M nt qt 0 1 = .ok c ∧ c.order = some p ∧ L = collocationError ‖lam * (tEnd / n : ℝ)‖ M p ∧
    double.getEigenvalues E ⟨nt, qt⟩ M = .ok raw ∧
    (∃ nodes Q' w', ∃ f' : ℕ → Matrix (Fin M) (Fin M) ℝ, double.CollocationArrays F qt hM raw 0 1 nodes Q' w' ∧
      ∀ k : ℕ, double.computeQDelta nodes 0 (some (k + 1)) (cls k) = .ok (f' k)) ∧
    ∀ nodes Q' w' (f' : ℕ → Matrix (Fin M) (Fin M) ℝ), double.CollocationArrays F qt hM raw 0 1 nodes Q' w' →
      (∀ k : ℕ, double.computeQDelta nodes 0 (some (k + 1)) (cls k) = .ok (f' k)) →
      ∀ r, double.SolveSDC S lam u0 tEnd n K Q' (.stack K M M fun k => f' k) (some ⟨M, w'⟩) r →
      ∃ l, r = .ok l ∧ l.length = n + 1 ∧ ∀ i (hi : i < l.length),
        ‖l[i] - u0 * Complex.exp (lam * (i * (tEnd / n) : ℝ))‖ ≤ ((a + (L + ((1 / 3) ^ (K + 2) + τ))) ^ i - a ^ i) * ‖u0‖ := by
  obtain ⟨c, raw, f, hc, hraw, -, hA0, hall⟩ := C101_double E S hv hM hM' hm hη hB hqt hn hθ hσ hS cls hcls true lam u0 tEnd n K hn0 hz e δ τ he hδ
    hyδ hτ
  have hB1 := hB.one_le hM
  have hy := norm_nonneg (lam * (tEnd / n : ℝ))
  have hzh : ‖lam * (tEnd / n : ℝ)‖ ≤ 1 / 2 := by
    have := le_mul_of_one_le_right hy (by linarith : 1 ≤ B + 1)
    linarith
  obtain ⟨p, hp, -, hstep⟩ := C102_step (by omega) c hc
  obtain ⟨hdet, hL⟩ := hstep _ hzh
  refine ⟨c, raw, p, _, hc, hp, rfl, hraw, hA0, fun nodes Q' w' f' hA hf r hr => ?_⟩
  obtain ⟨l, out, l', s, s', hl, -, hl', hlen, -, hlen', -, hs, hb⟩ := hall nodes Q' w' f' hA hf r (by simpa using hr)
  refine ⟨l, hl, hlen, fun i hi => ?_⟩
  rw [C30_solveDahlquist c.toQGenerator lam u0 tEnd n hn0 hdet] at hl'
  cases hl'
  have h1 := hb rfl i hi (by simpa using by omega)
  simp only [List.getElem_map, List.getElem_range] at h1
  rw [hs] at h1
  rw [← exp_step_pow, mul_comm u0]
  refine run_near ((norm_exp_step _ _ _).trans ha.symm) hL ?_ h1
  have h2 := S.σ_nonneg
  have h3 := double.u_nonneg
  have hen : 0 ≤ e := he ▸ nodesErr_nonneg double.u_nonneg E.θ_nonneg E.σ_nonneg nt qt M
  rw [hτ, hδ]
  positivity

/-- Instance: four Gauss nodes, one hundred steps up to time 10 of `u' = i u`: order 8, an error of at most `2·10⁻⁹`. -/
example : ∃ (c : Collocation 4) (e : ℝ), Collocation.new 4 "LEGENDRE" "GAUSS" 0 1 = .ok c ∧
    c.toQGenerator.errorDahlquist Complex.I 1 10 (100 : ℕ) = .ok e ∧ e ≤ 2 / 10 ^ 9 := by
  obtain ⟨c, hc⟩ := collocation_new_ok (M := 4) (nt := "LEGENDRE") (qt := "GAUSS") (by decide)
    (by decide) ⟨by norm_num, fun h => by simp at h⟩ 0 1
  obtain ⟨p, e, K, hp, hK, he, hle⟩ := C102_order (by norm_num) c hc Complex.I 1 10 (by simp) 100 (by norm_num) 10 (by simp) (by norm_num)
  have hp8 : p = 8 := by
    rcases legendre_order c hc with h | h | h
    · have := h.2
      rw [hp] at this
      simpa using this
    · simp at h
    · simp at h
  subst hp8
  refine ⟨c, e, hc, he, hle.trans ?_⟩
  have hK' : K / (100:ℕ) ^ 8 = 125 / 12 / 10 ^ 10 := by
    rw [hK]
    norm_num [Nat.factorial]
  rw [hK', norm_one, mul_one]
  have : Real.exp (125 / 12 / 10 ^ 10) ≤ 1.65 := by
    refine (Real.exp_le_exp.2 (by norm_num : (125 / 12 / 10 ^ 10 : ℝ) ≤ 1 / 2)).trans ?_
    have h := Real.exp_one_lt_d9
    have h2 : Real.exp (1 / 2) ^ 2 = Real.exp 1 := by
      rw [← Real.exp_nat_mul]; norm_num
    have h3 := Real.exp_pos (1 / 2)
    nlinarith
  nlinarith

/-- Instance: five Gauss nodes and ten steps of `20 u' = -u`, in double precision, against the exact solution. -/
example : ∃ raw, double.getEigenvalues roundedNodeOps ⟨"LEGENDRE", "GAUSS"⟩ 5 = .ok raw ∧
    ∃ nodes Q w r, double.CollocationArrays double.fejerOps "GAUSS" (by norm_num) raw 0 1 nodes Q w ∧
      double.SolveDahlquist ops (-1 / 20) 1 1 (10 : ℕ) Q ⟨5, w⟩ r ∧
      ∃ l, r = .ok l ∧ l.length = 11 ∧
        ∀ i (hi : i < l.length), ‖l[i] - Complex.exp (-1 / 20 * (i * (1 / 10) : ℝ))‖ ≤ 1 / 10 ^ 7 := by
  obtain ⟨he, he2⟩ := nodesErr_double roundedNodeOps (M := 5) (by norm_num) "LEGENDRE" "GAUSS" le_rfl (by show (0:ℝ) ≤ _; norm_num)
  have he3 := he2 (by decide)
  have hz : ‖(-1 / 20 : ℂ) * ((1 : ℝ) / (10 : ℕ) : ℝ)‖ = 1 / 200 := by
    rw [norm_mul, norm_div, norm_neg, norm_one, Complex.norm_real]
    norm_num
  have hes := nodesErr_nonneg (u := double.u) (θ := roundedNodeOps.θ) (σ := roundedNodeOps.σ) double.u_nonneg roundedNodeOps.θ_nonneg
    roundedNodeOps.σ_nonneg "LEGENDRE" "GAUSS" 5
  generalize heq : nodesErr double.u roundedNodeOps.θ roundedNodeOps.σ "LEGENDRE" "GAUSS" 5 = e at he3 hes
  obtain ⟨c, raw, p, L, hc, hp, hL, hraw, ⟨nodes, Q, w, hA⟩, hall⟩ := C102_double (F := double.fejerOps) roundedNodeOps ops
    (by show double.u ≤ _; rw [double_u]; norm_num) (M := 5) (by norm_num) (by norm_num) (m := 5) rfl
    (by show 4 * double.u / (5:ℕ) + 4 * (1 + double.u) * 0 / √(5:ℕ) ≤ _; rw [double_u]; norm_num) (nt := "LEGENDRE") (qt := "GAUSS") (Or.inl ⟨rfl, rfl⟩)
    (by decide) ⟨by norm_num, fun h => by simp at h⟩ le_rfl (by show (0:ℝ) ≤ _; norm_num) (by show (1 / 10 ^ 15 : ℝ) ≤ _; norm_num)
    (-1 / 20) 1 1 10 (by norm_num) (by rw [hz]; norm_num) e _ _ _ heq.symm rfl (by rw [hz]; norm_num at he3 ⊢; linarith) rfl rfl
  obtain ⟨r, hr⟩ := C97_exists (R := double) (S := ops) (-1 / 20) 1 1 10 Q ⟨5, w⟩
  obtain ⟨l, hl, hlen, hb⟩ := hall nodes Q w hA r hr
  refine ⟨raw, hraw, nodes, Q, w, r, hA, hr, l, hl, hlen, fun i hi => ?_⟩
  have hp10 : p = 10 := by
    rcases legendre_order c hc with h | h | h
    · have := h.2
      rw [hp] at this
      simpa using this
    · simp at h
    · simp at h
  subst hp10
  have h1 := hb i hi
  rw [one_mul, norm_one, mul_one] at h1
  have h2 : ‖l[i] - Complex.exp (-1 / 20 * (i * (1 / (10:ℕ)) : ℝ))‖ ≤ 1 / 10 ^ 7 := by
    refine h1.trans (instance_bound (Real.exp_pos _).le ?_ ?_ ?_ (by omega))
    · rw [Real.exp_le_one_iff]
      norm_num
    · rw [hL, hz, double_u]
      have := ops.σ_nonneg
      have := collocationError_nonneg (y := 1 / 200) (by norm_num) 5 10
      positivity
    · rw [hL, hz, double_u, collocationError]
      have h0 : ops.σ = 1 / 10 ^ 15 := rfl
      rw [h0]
      norm_num [Nat.factorial] at he3 ⊢
      linarith
  simpa using h2

end QMat
