import Verif.Lemmas.DoubleLagrange

/-!
# Weights of `'STABLE'` in double precision

With distances in the range of the format, sums of logarithms are in the range as well, whatever the number of points.  The exponentials of
the (non-positive) differences with the largest logarithm may underflow.
-/

namespace QMat.Format

open Finset

variable {n : ℕ} {F : Format} {x : Fin n → ℝ}

open Classical in
/-- The elementary functions without underflow and overflow. -/
noncomputable def Elementary.toR (E : F.Elementary) : Rounding.Elementary where
  log y := if F.fl y = y then E.log y else Real.log y
  exp y := if h : F.small ≤ Real.exp y ∧ Real.exp y * (1 + E.v) ≤ F.large then (E.exp_normal y h.1 h.2).choose else Real.exp y
  v := E.v
  v_nonneg := E.v_nonneg
  v_lt_one := E.v_lt_one
  log_err y := by
    split_ifs with h
    · exact E.log_err y h
    · rw [sub_self, abs_zero]
      exact mul_nonneg E.v_nonneg (abs_nonneg _)
  exp_err y := by
    split_ifs with h
    · exact (E.exp_normal y h.1 h.2).choose_spec.2
    · rw [sub_self, abs_zero]
      exact mul_nonneg E.v_nonneg (Real.exp_pos y).le

theorem abs_npSign {d : ℝ} (hd : d ≠ 0) : |npSign d| = 1 := by
  unfold npSign
  split_ifs with h1 h2
  · simp
  · simp
  · exact absurd (le_antisymm (not_lt.1 h1) (not_lt.1 h2)) hd

/-- Rounding does not change the sign. -/
theorem fl_nonpos (R : Rounding) {z : ℝ} (hz : z ≤ 0) : R.fl z ≤ 0 := by
  have h := (abs_le.1 (R.err z)).2
  rw [abs_of_nonpos hz] at h
  nlinarith [R.u_lt_one]

/-- Rounding in the format and without limits of the exponent. -/
theorem rnd_small_abs {q : ℝ} (h : |q| ≤ 4) (h4 : 16 ≤ F.large) (hu : F.R.u ≤ 1) (ht : F.tiny ≤ 1) :
    ∃ e, F.rnd q = .fin e ∧ |e - q| ≤ F.tiny + F.R.u * |q| := by
  have u0 := F.R.u_nonneg
  have t0 := F.tiny_nonneg
  have hb : |F.fl q - q| ≤ F.tiny + F.R.u * |q| := by
    rcases le_or_gt F.small |q| with hs | hs
    · rw [F.fl_normal q hs]
      linarith [F.R.err q]
    · have := mul_nonneg u0 (abs_nonneg q)
      linarith [F.fl_small q hs]
  refine ⟨F.fl q, ?_, hb⟩
  rw [rnd, if_neg (not_lt.2 ?_)]
  have h1 := abs_sub_abs_le_abs_sub (F.fl q) q
  nlinarith [abs_nonneg q]

theorem IsDouble.u_small (hF : F.IsDouble) : F.R.u * F.small = F.tiny := by
  rw [hF.u, hF.small, hF.tiny, show (-1075 : ℤ) = -53 + -1022 by norm_num, zpow_add₀ (by norm_num : (2:ℝ) ≠ 0)]
  norm_num

theorem IsDouble.tiny_le (hF : F.IsDouble) : F.tiny ≤ 1 / 16 := by
  rw [hF.tiny]
  calc (2:ℝ) ^ (-1075 : ℤ) ≤ 2 ^ (-4 : ℤ) := zpow_le_zpow_right₀ (by norm_num) (by norm_num)
    _ = 1 / 16 := by norm_num

theorem IsDouble.large_ge (hF : F.IsDouble) : 2 ^ 60 ≤ F.large := by
  rw [hF.large]
  have h2 : (1:ℝ) ≤ 2 - 2 ^ (-52 : ℤ) := by norm_num
  have h3 : (2:ℝ) ^ 60 ≤ 2 ^ 1023 := pow_le_pow_right₀ (by norm_num) (by norm_num)
  exact h3.trans (le_mul_of_one_le_left (by positivity) h2)

/-- An exponential of a non-positive number, with its sign. -/
theorem exp_range (hF : F.IsDouble) (E : F.Elementary) {y s : ℝ} (hy : y ≤ 0) (hs : |s| = 1) :
    ∃ e, F.mul (E.expFP (.fin y)) (.fin s) = .fin e ∧ |e - F.R.fl (E.toR.exp y * s)| ≤ 8 * F.tiny := by
  have u0 := F.R.u_nonneg
  have hu : F.R.u ≤ 1 := F.R.u_lt_one.le
  have t0 := F.tiny_nonneg
  have v0 := E.v_nonneg
  have v1 := E.v_lt_one
  have hlg : 16 ≤ F.large := le_trans (by norm_num) hF.large_ge
  have hus := hF.u_small
  have hE1 : Real.exp y ≤ 1 := Real.exp_le_one_iff.2 hy
  have hE0 := Real.exp_pos y
  have htl := hF.tiny_le
  rcases le_or_gt F.small (Real.exp y) with h | h
  · have h' : F.small ≤ Real.exp y ∧ Real.exp y * (1 + E.v) ≤ F.large := ⟨h, by nlinarith⟩
    obtain ⟨e1, e2⟩ := (E.exp_normal y h'.1 h'.2).choose_spec
    have e3 : E.toR.exp y = (E.exp_normal y h'.1 h'.2).choose := dif_pos h'
    rw [← e3] at e1 e2
    have hmul : F.mul (E.expFP (.fin y)) (.fin s) = F.rnd (E.toR.exp y * s) := by
      change F.mul (E.exp y) _ = _
      rw [e1]
      rfl
    rw [hmul]
    set q := E.toR.exp y * s
    have hq : |q| ≤ 4 := by
      rw [abs_mul, hs, mul_one]
      have := abs_sub_abs_le_abs_sub (E.toR.exp y) (Real.exp y)
      rw [abs_of_pos hE0] at this
      nlinarith
    have hq2 : |F.R.fl q| ≤ F.large := by
      have h1 := abs_sub_abs_le_abs_sub (F.R.fl q) q
      have h2 := F.R.err q
      nlinarith [abs_nonneg q]
    obtain ⟨e, h1, h2⟩ := rnd_near hq2 (by linarith [hF.small_quarter])
    refine ⟨e, h1, ?_⟩
    rcases h2 with rfl | ⟨-, -, h2⟩
    · rw [sub_self, abs_zero]
      linarith
    · linarith
  · have h' : ¬ (F.small ≤ Real.exp y ∧ Real.exp y * (1 + E.v) ≤ F.large) := fun h' => absurd h'.1 (not_le.2 h)
    have e3 : E.toR.exp y = Real.exp y := dif_neg h'
    obtain ⟨c, c1, c2⟩ := E.exp_small y h
    have hmul : F.mul (E.expFP (.fin y)) (.fin s) = F.rnd (c * s) := by
      change F.mul (E.exp y) _ = _
      rw [c1]
      rfl
    have hc : |c * s| ≤ F.small + F.tiny := by
      rw [abs_mul, hs, mul_one]
      have := abs_sub_abs_le_abs_sub c (Real.exp y)
      rw [abs_of_pos hE0] at this
      linarith
    have hsq := hF.small_quarter
    obtain ⟨e, h1, h2⟩ := rnd_small_abs (F := F) (q := c * s) (by linarith) hlg hu (by linarith)
    refine ⟨e, by rw [hmul, h1], ?_⟩
    rw [e3]
    have h3 := F.R.err (Real.exp y * s)
    have h4 : |c * s - Real.exp y * s| ≤ F.tiny := by
      rw [← sub_mul, abs_mul, hs, mul_one]
      exact c2
    have h5 : |Real.exp y * s| ≤ F.small := by
      rw [abs_mul, hs, mul_one, abs_of_pos hE0]
      exact h.le
    have h6 : F.R.u * |Real.exp y * s| ≤ F.tiny := by
      rw [← hus]
      exact mul_le_mul_of_nonneg_left h5 u0
    have h7 : F.R.u * |c * s| ≤ F.tiny + F.tiny := by
      have := mul_le_mul_of_nonneg_left hc u0
      nlinarith
    have t1 := abs_sub_le e (c * s) (Real.exp y * s)
    have t2 := abs_sub_le e (Real.exp y * s) (F.R.fl (Real.exp y * s))
    rw [abs_sub_comm (Real.exp y * s)] at t2
    linarith

theorem stable_range (hF : F.IsDouble) (E : F.Elementary) (hn : n ≤ 2 ^ 40) (hx : Function.Injective x)
    (hd : ∀ i j, i ≠ j → |Real.log (x i - x j)| ≤ 700) {w : Fin n → FP} (hw : F.LogScaleMax E x w) :
    ∃ w' : Fin n → ℝ, F.R.LogScale E.toR "MAX" x w' ∧ (∀ i, ∃ e, w i = .fin e ∧ |e - w' i| ≤ 8 * F.tiny) ∧
      ∃ k, (1 - F.R.u) * (1 - E.v) ≤ |w' k| := by
  have u0 := F.R.u_nonneg
  have u1 := F.R.u_lt_one
  have v0 := E.v_nonneg
  have v1 := E.v_lt_one
  have hω := hF.mul_ω_le (k := 1) (by norm_num)
  push_cast at hω
  have hdiff : ∀ i j, F.diffs x i j = .fin (F.R.diffs x i j) ∧ F.R.diffs x i j ≠ 0 ∧ |Real.log (F.R.diffs x i j)| ≤ 701 ∧
      F.fl (F.R.diffs x i j) = F.R.diffs x i j :=
    fun i j => by
      rw [diffs, Rounding.diffs]
      split_ifs with hij
      · exact ⟨rfl, one_ne_zero, by norm_num, by rw [F.fl_normal 1 (by rw [abs_one]; exact F.small_le_one), F.R.one]⟩
      · have h0 := sub_ne_zero.2 fun e => hij (hx e)
        have h1 := hd i j hij
        obtain ⟨h2, h3⟩ := fl_log F.R h0
        exact ⟨hF.range h0 (by linarith), h2, by linarith,
          fl_R_fl (hF.small_le.trans (abs_le_exp h0 (L := 708) (by linarith)).1)⟩
  have habs : ∀ i j, F.fl (|F.R.diffs x i j|) = |F.R.diffs x i j| := fun i j => by
    rcases abs_choice (F.R.diffs x i j) with h | h
    · rw [h, (hdiff i j).2.2.2]
    · rw [h, F.fl_neg _ (hdiff i j).2.2.2]
  obtain ⟨wLog, h1, k, h2, h3⟩ := hw
  have hlog : ∀ i j, |E.log (|F.R.diffs x i j|)| ≤ 1402 := fun i j => by
    have a1 := E.log_err _ (habs i j)
    rw [Real.log_abs] at a1
    have a2 := abs_sub_abs_le_abs_sub (E.log |F.R.diffs x i j|) (Real.log (F.R.diffs x i j))
    have a3 := (hdiff i j).2.2.1
    nlinarith [abs_nonneg (Real.log (F.R.diffs x i j))]
  have hsum : ∀ i, (1 + F.R.u) ^ (univ : Finset (Fin n)).card * ∑ j, |E.log (|F.R.diffs x i j|)| ≤ 2 ^ 53 := fun i => by
    have b1 := hF.pow_le (k := (univ : Finset (Fin n)).card) (by simp; omega)
    have b2 : ∑ j, |E.log (|F.R.diffs x i j|)| ≤ n * 1402 := by
      refine (sum_le_sum fun j _ => hlog i j).trans ?_
      simp
    have b3 : (n:ℝ) ≤ 2 ^ 40 := by exact_mod_cast hn
    have b0 : 0 ≤ ∑ j, |E.log (|F.R.diffs x i j|)| := sum_nonneg fun _ _ => abs_nonneg _
    have b4 := mul_le_mul_of_nonneg_right b1 b0
    have b5 : (2:ℝ) ^ 53 = 8192 * 2 ^ 40 := by norm_num
    rw [b5]
    linarith
  have hlarge := hF.large_ge
  have hr : ∀ i, ∃ r, wLog i = .fin (-r) ∧ F.R.NpSum (fun j => E.log |F.R.diffs x i j|) r ∧ F.fl r = r ∧ |r| ≤ 2 ^ 53 := fun i => by
    obtain ⟨a, a1, a2⟩ := h1 i
    obtain ⟨r, r1, r2, r3, r4⟩ := reduce_add_range (F := F) (y := fun j => E.log |F.R.diffs x i j|)
      (fun j _ => by rw [(hdiff i j).1]; rfl) (fun j _ => E.log_fl _) ((hsum i).trans (le_trans (by norm_num) hlarge))
      (npSum_reduce a1 i.pos)
    exact ⟨r, by rw [a2, r1]; rfl, Or.inr r2, r3, r4.trans (hsum i)⟩
  choose r r1 r2 r3 r4 using hr
  have hle : ∀ i, -r i ≤ -r k := fun i => by
    have := h2 i
    rw [r1 i, r1 k] at this
    rcases this with h | h | h | ⟨a, b, ha, hb, hab⟩
    · exact (FP.fin.inj h).le
    · cases h
    · cases h
    · rw [FP.fin.inj ha, FP.fin.inj hb]
      exact hab
  have hadd : ∀ i, F.add (wLog i) (neg (wLog k)) = .fin (F.R.fl (-r i - -r k)) := fun i => by
    rw [r1 i, r1 k]
    change F.rnd (-r i + - -r k) = _
    rw [sub_eq_add_neg]
    refine (rnd_add (F.fl_neg _ (r3 i)) (F.fl_neg _ (F.fl_neg _ (r3 k))) (le_trans ?_ hlarge)).1
    have c1 := F.R.err (-r i + - -r k)
    have c2 := abs_sub_abs_le_abs_sub (F.R.fl (-r i + - -r k)) (-r i + - -r k)
    have c3 := abs_add_le (-r i) (- -r k)
    rw [abs_neg, abs_neg, abs_neg] at c3
    have c4 := r4 i
    have c5 := r4 k
    have c6 := mul_le_of_le_one_left (abs_nonneg (-r i + - -r k)) u1.le
    have c7 : (2:ℝ) ^ 60 = 128 * 2 ^ 53 := by norm_num
    rw [c7]
    linarith
  have hs : ∀ i, ∏ j, sign (F.diffs x i j) = ∏ j, npSign (F.R.diffs x i j) := fun i =>
    prod_congr rfl fun j _ => by rw [(hdiff i j).1]; rfl
  have hs1 : ∀ i, |∏ j, npSign (F.R.diffs x i j)| = 1 := fun i => by
    rw [abs_prod]
    exact prod_eq_one fun j _ => abs_npSign (hdiff i j).2.1
  refine ⟨fun i => F.R.fl (E.toR.exp (F.R.fl (-r i - -r k)) * ∏ j, npSign (F.R.diffs x i j)),
    ⟨fun i => -r i, fun i => ⟨r i, by simpa only [Elementary.toR, habs, if_true] using r2 i, rfl⟩, k, Or.inr ⟨rfl, hle⟩, fun i => rfl⟩, fun i => ?_, k, ?_⟩
  · obtain ⟨e, e1, e2⟩ := exp_range hF E (fl_nonpos F.R (sub_nonpos.2 (hle i))) (hs1 i)
    exact ⟨e, by rw [h3 i, hadd i, hs i, e1], e2⟩
  · refine le_trans ?_ (fl_ge F.R _)
    rw [abs_mul, hs1, mul_one, sub_self, F.R.fl_zero]
    have d1 := E.toR.exp_err 0
    rw [Real.exp_zero, mul_one] at d1
    have d2 := abs_sub_abs_le_abs_sub 1 (E.toR.exp 0)
    rw [abs_one, abs_sub_comm] at d2
    have d3 : E.toR.v = E.v := rfl
    rw [d3] at d1
    exact mul_le_mul_of_nonneg_left (by linarith) (by linarith)

end QMat.Format
