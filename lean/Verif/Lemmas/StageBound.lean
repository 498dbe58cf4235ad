import Verif.Lemmas.AStable
import Verif.Lemmas.Lebesgue

/-!
# Size of the stage values of Legendre collocation in the left half plane
-/

namespace QMat

open Polynomial Spec Matrix

/-- `∫ P_n² = 2 P_n(1)² / (2 n + 1)`. -/
theorem legPoly_norm (n : ℕ) : (2 * n + 1) * polyInt (legPoly n ^ 2) (-1) 1 = 2 * (legPoly n).eval 1 ^ 2 := by
  have h := polyInt_derivative (X * legPoly n ^ 2) (-1) 1
  have hneg : (legPoly n).eval (-1) ^ 2 = (legPoly n).eval 1 ^ 2 := by
    rw [legPoly_neg, mul_pow, ← pow_mul, mul_comm n 2, pow_mul, neg_one_sq, one_pow, one_mul]
  have hr : (X * legPoly n ^ 2 : ℝ[X]).eval 1 - (X * legPoly n ^ 2 : ℝ[X]).eval (-1) = 2 * (legPoly n).eval 1 ^ 2 := by
    simp only [eval_mul, eval_X, eval_pow, hneg]
    ring
  rw [hr] at h
  set q : ℝ[X] := X * derivative (legPoly n) - C (n:ℝ) * legPoly n with hq
  have hqd : q.degree < n := by
    rw [degree_lt_iff_coeff_zero]
    intro m hm
    rw [hq, coeff_sub, coeff_C_mul]
    rcases hm.eq_or_lt with rfl | hm
    · have hl : (legPoly n).coeff n = 1 := by
        have := (legPoly_monic n).coeff_natDegree
        rwa [legPoly_natDegree] at this
      cases n with
      | zero => simp [legPoly_zero]
      | succ k => rw [coeff_X_mul, coeff_derivative, hl]; push_cast; ring
    · have h0 : ∀ j, n < j → (legPoly n).coeff j = 0 := fun j hj => coeff_eq_zero_of_natDegree_lt (by rw [legPoly_natDegree]; exact hj)
      obtain ⟨k, rfl⟩ : ∃ k, m = k + 1 := ⟨m - 1, by omega⟩
      rw [coeff_X_mul, coeff_derivative, h0 _ hm]
      ring
  have e : derivative (X * legPoly n ^ 2) = C (2 * (n:ℝ) + 1) * legPoly n ^ 2 + C 2 * (q * legPoly n) := by
    have h2 : (C 2 : ℝ[X]) = 2 := rfl
    rw [hq, derivative_mul, derivative_X, derivative_pow]
    simp only [C_add, C_mul, h2, map_natCast, map_one, map_ofNat, Nat.add_one_sub_one, pow_one, Nat.cast_ofNat]
    ring
  rw [e, polyInt_add, polyInt_C_mul, polyInt_C_mul, legPoly_orth hqd, mul_zero, add_zero] at h
  exact h

theorem legPoly_norm_pos (n : ℕ) : 0 < polyInt (legPoly n ^ 2) (-1) 1 :=
  polyInt_pos (pow_ne_zero 2 (legPoly_monic n).ne_zero) (by norm_num) fun t _ _ => by rw [eval_pow]; positivity

/-- The maximum of a polynomial of degree less than `n` on `[-1, 1]` against its mean square. -/
theorem sq_le_polyInt_sym (n : ℕ) : ∀ p : ℝ[X], p.degree < n → ∀ t, |t| ≤ 1 → p.eval t ^ 2 ≤ (n:ℝ) ^ 2 / 2 * polyInt (p ^ 2) (-1) 1 := by
  induction n with
  | zero =>
    intro p hp t _
    have : p = 0 := by
      rw [← degree_eq_bot]
      exact Nat.WithBot.lt_zero_iff.1 (by exact_mod_cast hp)
    subst this
    simp [polyInt]
  | succ n ih =>
    intro p hp t ht
    set c := p.coeff n with hc
    set q := p - C c * legPoly n with hq
    have hqd : q.degree < n := by
      rw [degree_lt_iff_coeff_zero]
      intro m hm
      rw [hq, coeff_sub, coeff_C_mul]
      rcases hm.eq_or_lt with rfl | hm
      · have hl : (legPoly n).coeff n = 1 := by
          have := (legPoly_monic n).coeff_natDegree
          rwa [legPoly_natDegree] at this
        rw [hl, hc]; ring
      · rw [coeff_eq_zero_of_natDegree_lt (p := legPoly n) (by rw [legPoly_natDegree]; exact hm),
          coeff_eq_zero_of_degree_lt (lt_of_lt_of_le hp (by exact_mod_cast hm))]
        ring
    have hp' : p = C c * legPoly n + q := by rw [hq]; ring
    have hint : polyInt (p ^ 2) (-1) 1 = c ^ 2 * polyInt (legPoly n ^ 2) (-1) 1 + polyInt (q ^ 2) (-1) 1 := by
      have e : p ^ 2 = C (c ^ 2) * legPoly n ^ 2 + C (2 * c) * (q * legPoly n) + q ^ 2 := by
        have h2 : (C 2 : ℝ[X]) = 2 := rfl
        rw [hp', C_pow, C_mul, h2]
        ring
      rw [e, polyInt_add, polyInt_add, polyInt_C_mul, polyInt_C_mul, legPoly_orth hqd]
      ring
    have hq1 := ih q hqd t ht
    have hev : p.eval t = c * (legPoly n).eval t + q.eval t := by conv_lhs => rw [hp']; simp
    have hL : (legPoly n).eval t ^ 2 ≤ (2 * n + 1) / 2 * polyInt (legPoly n ^ 2) (-1) 1 := by
      have h1 := legPoly_sq_le n ht
      have h2 := legPoly_norm n
      linarith
    have hh := legPoly_norm_pos n
    have hI : 0 ≤ polyInt (q ^ 2) (-1) 1 := intervalIntegral.integral_nonneg (by norm_num) fun t _ => by rw [eval_pow]; positivity
    rw [hev, hint]
    push_cast
    set h := polyInt (legPoly n ^ 2) (-1) 1
    set I := polyInt (q ^ 2) (-1) 1
    set a := (legPoly n).eval t
    set b := q.eval t
    have key := Finset.sum_sq_le_sum_mul_sum_of_sq_le_mul (Finset.univ : Finset (Fin 2)) (r := ![c * a, b])
      (f := ![(2 * n + 1) / 2, (n:ℝ) ^ 2 / 2]) (g := ![c ^ 2 * h, I]) (fun i _ => by fin_cases i <;> simp <;> positivity)
      (fun i _ => by fin_cases i <;> simp <;> positivity) (fun i _ => by
        fin_cases i
        · simp
          calc (c * a) ^ 2 = c ^ 2 * a ^ 2 := by ring
            _ ≤ c ^ 2 * ((2 * n + 1) / 2 * h) := mul_le_mul_of_nonneg_left hL (sq_nonneg c)
            _ = _ := by ring
        · simpa using hq1)
    simp only [Fin.sum_univ_two, Matrix.cons_val_zero, Matrix.cons_val_one] at key
    refine key.trans (le_of_eq ?_)
    ring

/-- The same on `[0, 1]`. -/
theorem sq_le_polyInt {n : ℕ} {p : ℝ[X]} (hp : p.natDegree < n) {t : ℝ} (h0 : 0 ≤ t) (h1 : t ≤ 1) :
    p.eval t ^ 2 ≤ (n:ℝ) ^ 2 * polyInt (p ^ 2) 0 1 := by
  set r : ℝ[X] := p.comp (C (1 / 2) + C (1 / 2) * X) with hr
  have hrd : r.degree < n := by
    refine lt_of_le_of_lt degree_le_natDegree ?_
    have : r.natDegree ≤ p.natDegree := by
      refine (natDegree_comp_le).trans ?_
      refine (Nat.mul_le_mul_left _ (show (C (1 / 2) + C (1 / 2) * X : ℝ[X]).natDegree ≤ 1 from ?_)).trans (by simp)
      compute_degree
    exact_mod_cast this.trans_lt hp
  have h := sq_le_polyInt_sym n r hrd (2 * t - 1) (abs_le.2 ⟨by linarith, by linarith⟩)
  have e1 : r.eval (2 * t - 1) = p.eval t := by
    rw [hr, eval_comp]
    congr 1
    simp
    ring
  have e2 : polyInt (r ^ 2) (-1) 1 = 2 * polyInt (p ^ 2) 0 1 := by
    simp only [polyInt, hr, eval_pow, eval_comp]
    have := intervalIntegral.integral_comp_add_mul (a := -1) (b := 1) (fun s => p.eval s ^ 2) (c := (1 / 2 : ℝ)) (by norm_num) (1 / 2)
    simp only [eval_add, eval_mul, eval_C, eval_X]
    rw [this]
    norm_num
  rw [e1, e2] at h
  linarith

variable {M : ℕ} {x w : Fin M → ℝ} {A : Matrix (Fin M) (Fin M) ℝ}

/-- The polynomial with given derivatives at the nodes and value zero at zero. -/
theorem exists_stage_poly (hM : 0 < M) (hc : Function.Injective x)
    (hA : ∀ f : ℝ[X], f.degree < M → ∀ i, ∑ j, A i j * f.eval (x j) = polyInt f 0 (x i)) (v : Fin M → ℝ) :
    ∃ U P : ℝ[X], U = X * P ∧ P.natDegree ≤ M - 1 ∧ P.coeff (M - 1) = U.coeff M ∧ (derivative U).natDegree ≤ M - 1 ∧
      (∀ i, (derivative U).eval (x i) = v i) ∧ (∀ i, U.eval (x i) = ∑ j, A i j * v j) := by
  classical
  set f := Lagrange.interpolate Finset.univ x v with hf
  have hfd : f.degree < M := by
    have := Lagrange.degree_interpolate_lt (s := Finset.univ) v (v := x) hc.injOn
    rwa [Finset.card_univ, Fintype.card_fin] at this
  have hfe : ∀ i, f.eval (x i) = v i := fun i =>
    Lagrange.eval_interpolate_at_node v hc.injOn (Finset.mem_univ i)
  obtain ⟨G, hG, hGd, hGe⟩ := exists_antideriv f hfd 0
  have hG0 : G.eval 0 = 0 := by rw [← hGe]; simp [polyInt]
  have hGn : G.natDegree ≤ M := by
    by_cases h0 : G = 0
    · simp [h0]
    · have := (natDegree_lt_iff_degree_lt h0).mpr hGd
      omega
  refine ⟨G, G.divX, ?_, by rw [natDegree_divX_eq_natDegree_tsub_one]; omega, by rw [coeff_divX]; congr 1; omega,
    (natDegree_derivative_le G).trans (by omega), fun i => by rw [hG, hfe], fun i => ?_⟩
  · conv_lhs => rw [← divX_mul_X_add G]
    rw [coeff_zero_eq_eval_zero, hG0]
    simp [mul_comm]
  · have := hA f hfd i
    simp only [hfe] at this
    rw [← hGe, ← this]

/-- Size of the solution of the stage system with any right-hand side. -/
theorem stage_bound (hM : 0 < M) (hc : Function.Injective x) (hx0 : ∀ i, 0 ≤ x i) (hx1 : ∀ i, x i ≤ 1) (hw : ∀ i, 0 ≤ w i) (hw1 : ∑ i, w i = 1)
    (hup : QuadUpper x w (2 * M - 2))
    (hA : ∀ f : ℝ[X], f.degree < M → ∀ i, ∑ j, A i j * f.eval (x j) = polyInt f 0 (x i)) {z : ℂ} (hz : z.re ≤ 0)
    {u g : Fin M → ℂ} (hu : ∀ i, u i = g i + z * ∑ j, (A i j : ℂ) * u j) {G : ℝ} (hG : ∀ i, ‖g i‖ ≤ G) :
    (∀ i, ‖u i‖ ≤ (1 + 2 * (M:ℝ) ^ 2 * ‖z‖) * G) ∧
    ((∀ F : ℝ[X], F.natDegree ≤ 2 * M - 2 → ∑ i, w i * F.eval (x i) = polyInt F 0 1) → ∀ i, ‖u i‖ ≤ (1 + 2 * M * ‖z‖) * G) := by
  obtain ⟨U, P, hU, hPd, hPc, hUd, hUv, hUx⟩ := exists_stage_poly hM hc hA fun i => (z * u i).re
  obtain ⟨V, R, hV, hRd, hRc, hVd, hVv, hVx⟩ := exists_stage_poly hM hc hA fun i => (z * u i).im
  have hG0 : 0 ≤ G := (norm_nonneg _).trans (hG ⟨0, hM⟩)
  have h2 : 2 * M - 2 = (M - 1) + (M - 1) := by omega
  have h := hup (P * derivative U + R * derivative V) (by
      rw [h2]
      exact natDegree_add_le_of_degree_le (natDegree_mul_le.trans (Nat.add_le_add hPd hUd))
        (natDegree_mul_le.trans (Nat.add_le_add hRd hVd))) (by
      rw [h2, coeff_add, coeff_mul_add_eq_of_natDegree_le hPd hUd, coeff_mul_add_eq_of_natDegree_le hRd hVd, hPc, hRc,
        coeff_derivative_top U hM, coeff_derivative_top V hM]
      nlinarith [mul_nonneg (mul_self_nonneg (U.coeff M)) (Nat.cast_nonneg (α := ℝ) M),
        mul_nonneg (mul_self_nonneg (V.coeff M)) (Nat.cast_nonneg (α := ℝ) M)])
  have hint : ∀ {U P : ℝ[X]}, U = X * P →
      polyInt (P * derivative U) 0 1 = 1 / 2 * polyInt (P ^ 2) 0 1 + 1 / 2 * P.eval 1 ^ 2 := by
    intro U P h
    have e : P * derivative U = C (1 / 2) * P ^ 2 + C (1 / 2) * derivative (X * P ^ 2) := by
      have hC : (C (1 / 2) : ℝ[X]) * 2 = 1 := by
        rw [show (2 : ℝ[X]) = C 2 from rfl, ← C_mul]; norm_num
      rw [h, derivative_mul, derivative_mul, derivative_pow, derivative_X]
      simp only [Nat.cast_ofNat, map_ofNat, Nat.add_one_sub_one, pow_one]
      linear_combination (-(P ^ 2) - X * P * derivative P) * hC
    rw [e, polyInt_add, polyInt_C_mul, polyInt_C_mul, polyInt_derivative]
    simp
  rw [polyInt_add, hint hU, hint hV] at h
  set p : Fin M → ℂ := fun i => ⟨P.eval (x i), R.eval (x i)⟩ with hp
  set N := √(polyInt (P ^ 2) 0 1 + polyInt (R ^ 2) 0 1) with hN
  have hP0 := polyInt_sq_nonneg P
  have hR0 := polyInt_sq_nonneg R
  have hN0 : 0 ≤ N := Real.sqrt_nonneg _
  have hNN : N ^ 2 = polyInt (P ^ 2) 0 1 + polyInt (R ^ 2) 0 1 := Real.sq_sqrt (by linarith)
  have hpsq : ∀ i, ‖p i‖ ^ 2 = P.eval (x i) ^ 2 + R.eval (x i) ^ 2 := fun i => by
    rw [← Complex.normSq_eq_norm_sq, Complex.normSq_apply, hp]
    ring
  have hpN : ∀ i, ‖p i‖ ≤ M * N := fun i => by
    refine abs_le_of_sq_le_sq' ?_ (by positivity) |>.2
    rw [hpsq, mul_pow, hNN]
    have h1 := sq_le_polyInt (n := M) (p := P) (by omega) (hx0 i) (hx1 i)
    have h3 := sq_le_polyInt (n := M) (p := R) (by omega) (hx0 i) (hx1 i)
    linarith
  have hdiff : ∀ i, u i = g i + x i * p i := fun i => by
    rw [hu i]
    congr 1
    apply Complex.ext
    · have e := hUx i
      rw [hU, eval_mul, eval_X] at e
      rw [Finset.mul_sum, Complex.re_sum, Complex.mul_re, Complex.ofReal_re, Complex.ofReal_im, zero_mul, sub_zero, hp]
      simp only
      rw [e]
      refine Finset.sum_congr rfl fun j _ => ?_
      simp only [Complex.mul_re, Complex.mul_im, Complex.ofReal_re, Complex.ofReal_im]
      ring
    · have e := hVx i
      rw [hV, eval_mul, eval_X] at e
      rw [Finset.mul_sum, Complex.im_sum, Complex.mul_im, Complex.ofReal_re, Complex.ofReal_im, zero_mul, add_zero, hp]
      simp only
      rw [e]
      refine Finset.sum_congr rfl fun j _ => ?_
      simp only [Complex.mul_re, Complex.mul_im, Complex.ofReal_re, Complex.ofReal_im]
      ring
  have hterm : ∀ i, (P * derivative U + R * derivative V).eval (x i) ≤ ‖p i‖ * (‖z‖ * G) := fun i => by
    have e : (P * derivative U + R * derivative V).eval (x i) = ((starRingEnd ℂ) (p i) * (z * u i)).re := by
      rw [eval_add, eval_mul, eval_mul, hUv, hVv, Complex.mul_re ((starRingEnd ℂ) (p i)), Complex.conj_re, Complex.conj_im, hp]
      ring
    have e2 : (starRingEnd ℂ) (p i) * (z * u i) = z * ((x i * ‖p i‖ ^ 2 : ℝ) : ℂ) + (starRingEnd ℂ) (p i) * (z * g i) := by
      rw [hdiff i]
      have hcj : (starRingEnd ℂ) (p i) * p i = ((‖p i‖ ^ 2 : ℝ) : ℂ) := by
        rw [mul_comm, Complex.mul_conj, Complex.normSq_eq_norm_sq]
      rw [Complex.ofReal_mul, ← hcj]
      ring
    rw [e, e2, Complex.add_re, Complex.re_mul_ofReal]
    have h1 : z.re * (x i * ‖p i‖ ^ 2) ≤ 0 := mul_nonpos_of_nonpos_of_nonneg hz (mul_nonneg (hx0 i) (sq_nonneg _))
    have h3 : ((starRingEnd ℂ) (p i) * (z * g i)).re ≤ ‖p i‖ * (‖z‖ * G) := by
      refine (Complex.re_le_norm _).trans ?_
      rw [norm_mul, norm_mul, RCLike.norm_conj]
      gcongr
      exact hG i
    linarith
  have hmain : N ^ 2 / 2 ≤ (∑ i, w i * ‖p i‖) * (‖z‖ * G) := by
    have h1 : ∑ i, w i * (P * derivative U + R * derivative V).eval (x i) ≤ (∑ i, w i * ‖p i‖) * (‖z‖ * G) := by
      rw [Finset.sum_mul]
      refine Finset.sum_le_sum fun i _ => ?_
      rw [mul_assoc]
      exact mul_le_mul_of_nonneg_left (hterm i) (hw i)
    have := sq_nonneg (P.eval 1)
    have := sq_nonneg (R.eval 1)
    rw [hNN]
    linarith
  have hfin : ∀ κ : ℝ, 0 ≤ κ → ∑ i, w i * ‖p i‖ ≤ κ * N → ∀ i, ‖u i‖ ≤ (1 + 2 * (κ * M) * ‖z‖) * G := by
    intro κ hκ hs i
    have hzG : 0 ≤ ‖z‖ * G := mul_nonneg (norm_nonneg _) hG0
    have h1 : N ≤ 2 * κ * (‖z‖ * G) := by
      have h3 := hmain.trans (mul_le_mul_of_nonneg_right hs hzG)
      rcases hN0.eq_or_lt with h4 | h4
      · rw [← h4]; positivity
      · have : N * N ≤ (2 * κ * (‖z‖ * G)) * N := by nlinarith
        exact le_of_mul_le_mul_right this h4
    have h3 : ‖u i‖ ≤ ‖g i‖ + x i * ‖p i‖ := by
      rw [hdiff i]
      refine (norm_add_le _ _).trans ?_
      rw [norm_mul, Complex.norm_real, Real.norm_of_nonneg (hx0 i)]
    have h4 : x i * ‖p i‖ ≤ 1 * (M * N) := mul_le_mul (hx1 i) (hpN i) (norm_nonneg _) zero_le_one
    have h5 : (M:ℝ) * N ≤ M * (2 * κ * (‖z‖ * G)) := mul_le_mul_of_nonneg_left h1 (Nat.cast_nonneg _)
    have := hG i
    calc ‖u i‖ ≤ G + M * (2 * κ * (‖z‖ * G)) := by linarith
      _ = _ := by ring
  refine ⟨fun i => ?_, fun hex i => ?_⟩
  · have := hfin M (Nat.cast_nonneg _) (by
      calc ∑ i, w i * ‖p i‖ ≤ ∑ i, w i * (M * N) := Finset.sum_le_sum fun i _ => mul_le_mul_of_nonneg_left (hpN i) (hw i)
        _ = M * N := by rw [← Finset.sum_mul, hw1, one_mul]) i
    rw [← pow_two] at this
    exact this
  · have hsq : ∑ i, w i * ‖p i‖ ^ 2 = N ^ 2 := by
      have h1 := hex (P ^ 2 + R ^ 2) (by
        rw [h2]
        refine natDegree_add_le_of_degree_le ?_ ?_ <;> rw [pow_two]
        · exact natDegree_mul_le.trans (Nat.add_le_add hPd hPd)
        · exact natDegree_mul_le.trans (Nat.add_le_add hRd hRd))
      rw [polyInt_add, ← hNN] at h1
      rw [← h1]
      refine Finset.sum_congr rfl fun i _ => ?_
      rw [hpsq]
      simp
    have := hfin 1 zero_le_one (by
      rw [one_mul]
      refine abs_le_of_sq_le_sq' ?_ hN0 |>.2
      have hcs := Finset.sum_sq_le_sum_mul_sum_of_sq_le_mul (Finset.univ : Finset (Fin M)) (r := fun i => w i * ‖p i‖) (f := w)
        (g := fun i => w i * ‖p i‖ ^ 2) (fun i _ => hw i) (fun i _ => mul_nonneg (hw i) (sq_nonneg _)) (fun i _ => le_of_eq (by ring))
      rwa [hw1, one_mul, hsq] at hcs) i
    rw [one_mul] at this
    exact this

end QMat
