import Verif.Lemmas.DoubleBinary
import Verif.Lemmas.DoubleFail
import Verif.Props.Float

/-!
# C90: overflow and underflow
-/

namespace QMat

open Spec Polynomial Format

variable {n : ℕ} {F : Format} {x : Fin n → ℝ}

theorem auto_range (hF : F.IsDouble) (hn : n ≤ 2 ^ 49) (hx : Function.Injective x) {T : ℝ} (hT : T ≤ 706)
    (h : ∀ i, ∑ k ∈ Finset.univ.erase i, |Real.log (x i - x k)| ≤ T) {w : Fin n → FP}
    (hw : F.Fast x w ∨ ∃ E, F.Auto E x w) :
    ∃ v : Fin n → ℝ, F.R.Analytic x v ∧ (∀ i, w i = .fin (v i)) ∧ ∀ i, v i ≠ 0 ∧ F.fl (v i) = v i ∧ |Real.log (v i)| ≤ T + 1 := by
  rcases hw with ⟨p, hp, h'⟩ | ⟨E, p, hp, ⟨⟨k, hk⟩, -⟩ | ⟨-, h'⟩⟩
  · obtain ⟨-, v, h1, h2, h3⟩ := weights_range hF hn hx hT h hp
    exact ⟨v, h1, fun i => by rw [h', h2], h3⟩
  · exact absurd hk ((weights_range hF hn hx hT h hp).1 k)
  · obtain ⟨-, v, h1, h2, h3⟩ := weights_range hF hn hx hT h hp
    exact ⟨v, h1, fun i => by rw [h', h2], h3⟩

theorem le_of_sum (hx : Function.Injective x) {T : ℝ} (h : ∀ i, ∑ k ∈ Finset.univ.erase i, |Real.log (x i - x k)| ≤ T)
    (i j : Fin n) (hij : i ≠ j) : x i ≠ x j ∧ |Real.log (x i - x j)| ≤ T :=
  ⟨fun e => hij (hx e), (Finset.single_le_sum (f := fun k => |Real.log (x i - x k)|) (fun k _ => abs_nonneg _)
    (Finset.mem_erase.2 ⟨hij.symm, Finset.mem_univ j⟩)).trans (h i)⟩

/-- C90: if the logarithms of the distances of each point add up to at most 706, the products do not leave the range of double precision:
'FAST' and 'AUTO' give finite weights with the error bound of C85. -/
theorem C90_fast (hF : F.IsDouble) (hn : n ≤ 2 ^ 49) (hx : Function.Injective x)
    (h : ∀ i, ∑ k ∈ Finset.univ.erase i, |Real.log (x i - x k)| ≤ 706) {w : Fin n → FP}
    (hw : F.Fast x w ∨ ∃ E, F.Auto E x w) (i : Fin n) :
    ∃ e, w i = .fin e ∧ e ≠ 0 ∧ |e - 1 / ∏ k ∈ Finset.univ.erase i, (x i - x k)|
      ≤ gamma (1 / 2 ^ 53) (2 * n - 1) * |1 / ∏ k ∈ Finset.univ.erase i, (x i - x k)| := by
  have hu : ((2 * n - 1 : ℕ) : ℝ) * F.R.u < 1 := by
    rw [hF.u, mul_one_div, div_lt_one (by positivity)]
    exact_mod_cast (by omega : 2 * n - 1 < 2 ^ 53)
  obtain ⟨v, h1, h2, h3⟩ := auto_range hF hn hx le_rfl h hw
  have := C85_fast F.R h1 hu i
  rw [hF.u] at this
  exact ⟨v i, h2 i, (h3 i).1, this⟩

/-- C90: with a bound of 350 the rows of the interpolation matrix are finite, with the error bound of C86 and at most an absolute error of
`2^-1074` more, at each time with a distance between `exp(-300)` and `exp(300)` to each point, as long as the bound is below one. -/
theorem C90_interpolation (hF : F.IsDouble) (hn : n ≤ 2 ^ 49) (hx : Function.Injective x)
    (h : ∀ i, ∑ k ∈ Finset.univ.erase i, |Real.log (x i - x k)| ≤ 350) {w : Fin n → FP}
    (hw : F.Fast x w ∨ ∃ E, F.Auto E x w) {t : ℝ} (ht : ∀ j, t ≠ x j ∧ |Real.log (t - x j)| ≤ 300) {P : Fin n → FP}
    (hP : F.InterpolationRow x w t P) (hΛ : gamma (1 / 2 ^ 53) (3 * n + 2) * (1 + 2 * lebesgue x t) < 1) (j : Fin n) :
    ∃ e, P j = .fin e ∧ |e - (Lagrange.basis Finset.univ x j).eval t|
      ≤ gamma (1 / 2 ^ 53) (3 * n + 2) * (1 + lebesgue x t) / (1 - gamma (1 / 2 ^ 53) (3 * n + 2) * lebesgue x t)
        * |(Lagrange.basis Finset.univ x j).eval t| + 2 ^ (-1074 : ℤ) := by
  obtain ⟨v, h1, h2, h3⟩ := auto_range hF hn hx (by norm_num) h hw
  obtain rfl : w = fun i => .fin (v i) := funext h2
  have hn0 := j.pos
  obtain ⟨S, hS, hPS⟩ := row_range hF hn hn0 (fun j => ⟨(h3 j).1, (h3 j).2.2.trans (by norm_num)⟩)
    (fun i j hij => ⟨(le_of_sum hx h i j hij).1, (le_of_sum hx h i j hij).2.trans (by norm_num)⟩) (Or.inr ht) hP
  have hu : ((3 * n + 2 : ℕ) : ℝ) * F.R.u < 1 := by
    rw [hF.u, mul_one_div, div_lt_one (by positivity)]
    exact_mod_cast (by omega : 3 * n + 2 < 2 ^ 53)
  have hg : F.R.u ≤ gamma F.R.u (3 * n + 2) := by
    have u0 := F.R.u_nonneg
    have k1 : (1:ℝ) ≤ ((3 * n + 2 : ℕ) : ℝ) := by exact_mod_cast (by omega : 1 ≤ 3 * n + 2)
    rw [gamma, le_div_iff₀ (by linarith)]
    have := mul_nonneg (mul_nonneg (by linarith : (0:ℝ) ≤ ((3 * n + 2 : ℕ) : ℝ)) u0) u0
    nlinarith
  have hu53 : F.R.u * 2 ^ 53 = 1 := by rw [hF.u]; norm_num
  rw [← hF.u] at hΛ ⊢
  have hL0 : 0 ≤ lebesgue x t := Finset.sum_nonneg fun _ _ => abs_nonneg _
  have hlj : |(Lagrange.basis Finset.univ x j).eval t| ≤ lebesgue x t :=
    Finset.single_le_sum (f := fun j => |(Lagrange.basis Finset.univ x j).eval t|) (fun _ _ => abs_nonneg _) (Finset.mem_univ j)
  have hrow : F.R.InterpolationRow x v t fun j => F.R.fl (F.R.rowTerms x v t j / S) := ⟨S, hS, fun j => rfl⟩
  set g := gamma F.R.u (3 * n + 2)
  have hupos : 0 < F.R.u := by rw [hF.u]; positivity
  have hg0 : 0 < g := hupos.trans_le hg
  have hgΛ : g * lebesgue x t < 1 := by nlinarith
  have hb := C86_interpolation F.R hx h1 (fun j => (ht j).1) hrow hu hgΛ
  set δ := g * (1 + lebesgue x t) / (1 - g * lebesgue x t)
  have hδ1 : δ < 1 := by
    rw [div_lt_one (by linarith)]
    linarith
  have hS0 : S ≠ 0 := by
    rintro rfl
    have hz : ∀ j, (Lagrange.basis Finset.univ x j).eval t = 0 := fun j => by
      have := hb j
      simp only [div_zero, F.R.fl_zero, zero_sub, abs_neg] at this
      have h0 := abs_nonneg ((Lagrange.basis Finset.univ x j).eval t)
      exact abs_eq_zero.1 (le_antisymm (by nlinarith) h0)
    have hsum := congrArg (eval t) (Lagrange.sum_basis (s := Finset.univ) (v := x) hx.injOn ⟨j, Finset.mem_univ j⟩)
    rw [eval_finset_sum, eval_one, Finset.sum_eq_zero fun j _ => hz j] at hsum
    exact zero_ne_one hsum
  rw [hPS j]
  simp only [Format.div, hS0, if_false]
  have hbj := hb j
  have hle : |F.R.fl (F.R.rowTerms x v t j / S)| ≤ F.large := by
    refine le_trans ?_ hF.large_ge
    have a1 := abs_sub_abs_le_abs_sub (F.R.fl (F.R.rowTerms x v t j / S)) ((Lagrange.basis Finset.univ x j).eval t)
    have a2 := mul_le_mul_of_nonneg_right hδ1.le (abs_nonneg ((Lagrange.basis Finset.univ x j).eval t))
    have a3 : F.R.u * (2 * lebesgue x t) ≤ F.R.u * 2 ^ 53 := by
      rw [hu53]
      nlinarith
    have a4 := le_of_mul_le_mul_left a3 hupos
    have a5 : (2:ℝ) ^ 60 = 128 * 2 ^ 53 := by norm_num
    rw [a5]
    linarith
  obtain ⟨e, e1, e2⟩ := rnd_near hle (by linarith [hF.small_quarter, hF.tiny_le])
  refine ⟨e, e1, ?_⟩
  have htiny : F.tiny + F.R.u * F.small = 2 ^ (-1074 : ℤ) := by
    rw [hF.u_small, hF.tiny, show (-1074 : ℤ) = 1 + -1075 by norm_num, zpow_add₀ (by norm_num : (2:ℝ) ≠ 0)]
    ring
  rcases e2 with rfl | ⟨-, -, e2⟩
  · exact hbj.trans (le_add_of_nonneg_right (by positivity))
  · rw [htiny] at e2
    have := abs_sub_le e (F.R.fl (F.R.rowTerms x v t j / S)) ((Lagrange.basis Finset.univ x j).eval t)
    linarith

/-- C90: at the points themselves the rows are exact. -/
theorem C90_nodes (hF : F.IsDouble) (hn : n ≤ 2 ^ 49) (hx : Function.Injective x)
    (h : ∀ i, ∑ k ∈ Finset.univ.erase i, |Real.log (x i - x k)| ≤ 350) {w : Fin n → FP}
    (hw : F.Fast x w ∨ ∃ E, F.Auto E x w) (i : Fin n) {P : Fin n → FP}
    (hP : F.InterpolationRow x w (x i) P) (j : Fin n) : P j = .fin (if j = i then 1 else 0) := by
  obtain ⟨v, h1, h2, h3⟩ := auto_range hF hn hx (by norm_num) h hw
  obtain rfl : w = fun i => .fin (v i) := funext h2
  obtain ⟨S, hS, hPS⟩ := row_range hF hn j.pos (fun j => ⟨(h3 j).1, (h3 j).2.2.trans (by norm_num)⟩)
    (fun i j hij => ⟨(le_of_sum hx h i j hij).1, (le_of_sum hx h i j hij).2.trans (by norm_num)⟩) (Or.inl ⟨i, rfl⟩) hP
  have hb := C86_nodes F.R hx h1 i (P := fun j => F.R.fl (F.R.rowTerms x v (x i) j / S)) ⟨S, hS, fun j => rfl⟩
  have hS0 : S ≠ 0 := by
    rintro rfl
    have := hb i
    simp [F.R.fl_zero] at this
  rw [hPS j]
  simp only [Format.div, hS0, if_false]
  have hbj := hb j
  have hle : |F.R.fl (F.R.rowTerms x v (x i) j / S)| ≤ F.large := by
    rw [hbj]
    split_ifs
    · rw [abs_one]; exact F.one_le_large
    · rw [abs_zero]; linarith [F.one_le_large]
  obtain ⟨e, e1, rfl | ⟨q0, q1, -⟩⟩ := rnd_near hle (by linarith [hF.small_quarter, hF.tiny_le])
  · rw [e1, hbj]
  · exfalso
    have k1 := fl_ge F.R (F.R.rowTerms x v (x i) j / S)
    have k2 := fl_le F.R (F.R.rowTerms x v (x i) j / S)
    have k3 := abs_pos.2 q0
    have k4 := F.R.u_lt_one
    rw [hbj] at k1 k2
    split_ifs at k1 k2 with hji
    · rw [abs_one] at k2
      have := hF.small_quarter
      nlinarith
    · rw [abs_zero] at k1
      nlinarith

/-- C90: 'STABLE' neither overflows nor gives undefined weights, whatever the product of the distances: only the distances themselves have to
be in the range.  The errors are those of C85, and absolute errors of at most `2^-1072` by underflow; the largest weight is close to one. -/
theorem C90_stable (hF : F.IsDouble) (E : F.Elementary) (hn : n ≤ 2 ^ 40) (hx : Function.Injective x)
    (hd : ∀ i j, i ≠ j → |Real.log (x i - x j)| ≤ 700) {w : Fin n → FP} (hw : F.LogScaleMax E x w) {T : ℝ}
    (hT : ∀ j, ∑ k ∈ Finset.univ.erase j, |Real.log (|x j - x k|)| ≤ T) :
    (∃ c > 0, ∀ j, ∃ e, w j = .fin e ∧ |e - c * (1 / ∏ k ∈ Finset.univ.erase j, (x j - x k))|
      ≤ (Real.exp (logScaleErr (1 / 2 ^ 53) E.v n T) - 1) * |c * (1 / ∏ k ∈ Finset.univ.erase j, (x j - x k))| + 2 ^ (-1072 : ℤ)) ∧
    ∃ k e, w k = .fin e ∧ (1 - 1 / 2 ^ 53) * (1 - E.v) - 2 ^ (-1072 : ℤ) ≤ |e| := by
  obtain ⟨w', h1, h2, k, h3⟩ := stable_range hF E hn hx hd hw
  have ht : 8 * F.tiny = 2 ^ (-1072 : ℤ) := by
    rw [hF.tiny, show (-1072 : ℤ) = 3 + -1075 by norm_num, zpow_add₀ (by norm_num : (2:ℝ) ≠ 0)]
    norm_num
  rw [ht] at h2
  obtain ⟨c, hc, h4⟩ := C85_stable F.R E.toR "MAX" hx h1 hT
  rw [hF.u] at h3 h4
  refine ⟨⟨c, hc, fun j => ?_⟩, k, ?_⟩
  · obtain ⟨e, h5, h6⟩ := h2 j
    refine ⟨e, h5, ?_⟩
    have := abs_sub_le e (w' j) (c * (1 / ∏ k ∈ Finset.univ.erase j, (x j - x k)))
    have h7 := h4 j
    change _ ≤ (Real.exp (logScaleErr (1 / 2 ^ 53) E.v n T) - 1) * _ at h7
    linarith
  · obtain ⟨e, h5, h6⟩ := h2 k
    refine ⟨e, h5, ?_⟩
    have := abs_sub_abs_le_abs_sub (w' k) e
    rw [abs_sub_comm] at this
    linarith

/-- C90, 'AUTO' does not always switch to 'STABLE' "if an overflow is detected": with distances of at least one whose products are at least
`2^1025` all weights are zero, and all entries of the interpolation matrix are nan. -/
theorem C90_overflow_fails (hF : F.IsDouble) (hn : n ≤ 2 ^ 50) (h1 : ∀ i j, i ≠ j → 1 ≤ |x i - x j|)
    (h2 : ∀ i, 2 ^ 1025 ≤ ∏ k ∈ Finset.univ.erase i, |x i - x k|) {w : Fin n → FP} (hw : F.Fast x w ∨ ∃ E, F.Auto E x w) :
    (∀ i, w i = .fin 0) ∧ ∀ t P, F.InterpolationRow x w t P → ∀ j, P j = .nan := by
  have h0 : ∀ i, w i = .fin 0 := by
    rcases hw with ⟨p, hp, h'⟩ | ⟨E, p, hp, ⟨⟨k, hk⟩, -⟩ | ⟨-, h'⟩⟩
    · intro i
      obtain ⟨s, hs⟩ := prod_overflow hF hn h1 (h2 i) (hp i)
      rw [h', invProd, hs]
      rfl
    · obtain ⟨s, hs⟩ := prod_overflow hF hn h1 (h2 k) (hp k)
      rw [hk] at hs
      cases hs
    · intro i
      obtain ⟨s, hs⟩ := prod_overflow hF hn h1 (h2 i) (hp i)
      rw [h', invProd, hs]
      rfl
  exact ⟨h0, fun t P hP j => row_zero_weights j.pos h0 hP j⟩

/-- C90: the points `0, 1, ..., n - 1` with `n ≥ 198`. -/
theorem C90_integers_fails (hF : F.IsDouble) (hn0 : 198 ≤ n) (hn : n ≤ 2 ^ 50) {w : Fin n → FP}
    (hw : F.Fast (fun i : Fin n => ((i : ℕ) : ℝ)) w ∨ ∃ E, F.Auto E (fun i : Fin n => ((i : ℕ) : ℝ)) w) :
    (∀ i, w i = .fin 0) ∧ ∀ t P, F.InterpolationRow (fun i : Fin n => ((i : ℕ) : ℝ)) w t P → ∀ j, P j = .nan := by
  obtain ⟨m, rfl⟩ : ∃ m, n = m + 1 := ⟨n - 1, by omega⟩
  refine C90_overflow_fails hF hn (fun i j hij => ?_) (fun i => ?_) hw
  · have h : ((i : ℕ) : ℤ) - (j : ℕ) ≠ 0 := fun h => hij (Fin.ext (by omega))
    have := Int.one_le_abs h
    have h' : ((1 : ℤ) : ℝ) ≤ ((|((i : ℕ) : ℤ) - (j : ℕ)| : ℤ) : ℝ) := by exact_mod_cast this
    push_cast at h'
    exact h'
  · have := prod_equid (h := 1) zero_le_one i
    simp only [mul_one, one_pow] at this
    rw [this]
    exact_mod_cast factorial_bound (by omega) (by omega : (i : ℕ) ≤ m)

/-- C90: with distances of at most one half a product between `n 2^-1073` and `2^-1026` gives an infinite weight: 'AUTO' does not switch to
'STABLE' either, and the column of this point of the interpolation matrix is nan at all times. -/
theorem C90_underflow_fails (hF : F.IsDouble) (hn : n ≤ 2 ^ 50)
    (h1 : ∀ i j, i ≠ j → 2 ^ (-1022 : ℤ) ≤ |x i - x j| ∧ |x i - x j| ≤ 1 / 2)
    (h2 : ∀ i, n * 2 ^ (-1073 : ℤ) ≤ ∏ k ∈ Finset.univ.erase i, |x i - x k|) {k : Fin n}
    (h3 : ∏ j ∈ Finset.univ.erase k, |x k - x j| ≤ 2 ^ (-1026 : ℤ)) {w : Fin n → FP} (hw : F.Fast x w ∨ ∃ E, F.Auto E x w) :
    (∃ s, w k = .inf s) ∧ ∀ t P, F.InterpolationRow x w t P → P k = .nan := by
  have h0 : ∃ s, w k = .inf s := by
    have hk : ∀ p : Fin n → FP, (∀ i, F.NpProd (F.diffs x i) (p i)) → (∀ i, w i = F.invProd p i) → ∃ s, w k = .inf s :=
      fun p hp h' => by
        obtain ⟨r, r1, r2, r3⟩ := prod_underflow hF hn h1 (h2 k) (hp k)
        rw [h', invProd, r1]
        exact inv_overflow hF r2 (r3.trans (mul_le_mul_of_nonneg_left h3 (by norm_num)))
    rcases hw with ⟨p, hp, h'⟩ | ⟨E, p, hp, ⟨⟨j, hj⟩, -⟩ | ⟨-, h'⟩⟩
    · exact hk p hp h'
    · obtain ⟨r, r1, r2, -⟩ := prod_underflow hF hn h1 (h2 j) (hp j)
      rw [hj] at r1
      exact absurd (FP.fin.inj r1).symm r2
    · exact hk p hp h'
  obtain ⟨s, hs⟩ := h0
  exact ⟨⟨s, hs⟩, fun t P hP => row_inf_weight hs hP⟩

/-- C90: the points `0, h, ..., 226 h` with `h = 1 / 1024`, and the one in the middle. -/
theorem C90_short_fails (hF : F.IsDouble) {w : Fin 227 → FP}
    (hw : F.Fast (fun i : Fin 227 => (i : ℕ) * (1 / 1024 : ℝ)) w ∨ ∃ E, F.Auto E (fun i : Fin 227 => (i : ℕ) * (1 / 1024 : ℝ)) w) :
    (∃ s, w 113 = .inf s) ∧ ∀ t P, F.InterpolationRow (fun i : Fin 227 => (i : ℕ) * (1 / 1024 : ℝ)) w t P → P 113 = .nan := by
  have hd : ∀ i j : Fin 227, i ≠ j → 1 / 1024 ≤ |(i : ℕ) * (1 / 1024 : ℝ) - (j : ℕ) * (1 / 1024 : ℝ)| ∧
      |(i : ℕ) * (1 / 1024 : ℝ) - (j : ℕ) * (1 / 1024 : ℝ)| ≤ 1 / 2 := fun i j hij => by
    have h : ((i : ℕ) : ℤ) - (j : ℕ) ≠ 0 := fun h => hij (Fin.ext (by omega))
    have h1 : 1 ≤ |((i : ℕ) : ℤ) - (j : ℕ)| := Int.one_le_abs h
    have h2 : |((i : ℕ) : ℤ) - (j : ℕ)| ≤ 512 := by rw [abs_le]; omega
    have h1' : ((1 : ℤ) : ℝ) ≤ ((|((i : ℕ) : ℤ) - (j : ℕ)| : ℤ) : ℝ) := by exact_mod_cast h1
    have h2' : ((|((i : ℕ) : ℤ) - (j : ℕ)| : ℤ) : ℝ) ≤ ((512 : ℤ) : ℝ) := by exact_mod_cast h2
    push_cast at h1' h2'
    rw [← sub_mul, abs_mul, abs_of_pos (by norm_num : (0:ℝ) < 1 / 1024)]
    constructor <;> linarith
  have hp : ∀ i : Fin 227, ∏ k ∈ Finset.univ.erase i, |(i : ℕ) * (1 / 1024 : ℝ) - (k : ℕ) * (1 / 1024 : ℝ)| =
      (((i : ℕ).factorial * (226 - i : ℕ).factorial : ℕ) : ℝ) / 2 ^ 2260 := fun i => by
    rw [prod_equid (m := 226) (by norm_num) i, one_div, inv_pow, show (1024:ℝ) = 2 ^ 10 by norm_num, ← pow_mul]
    push_cast
    rfl
  refine C90_underflow_fails hF (by norm_num) (fun i j hij => ⟨le_trans ?_ (hd i j hij).1, (hd i j hij).2⟩) (fun i => ?_) ?_ hw
  · calc (2:ℝ) ^ (-1022 : ℤ) ≤ 2 ^ (-10 : ℤ) := zpow_le_zpow_right₀ (by norm_num) (by norm_num)
      _ = 1 / 1024 := by norm_num
  · rw [hp i, le_div_iff₀ (by positivity), mul_assoc, ← zpow_natCast, ← zpow_add₀ (by norm_num : (2:ℝ) ≠ 0)]
    have : ∀ i : Fin 227, 227 * 2 ^ 1187 ≤ (i : ℕ).factorial * (226 - i : ℕ).factorial := by decide +kernel
    have h := Nat.cast_le (α := ℝ).2 (this i)
    rw [Nat.cast_mul, Nat.cast_pow, Nat.cast_ofNat (n := 2)] at h
    rw [show (-1073 : ℤ) + ((2260 : ℕ) : ℤ) = ((1187 : ℕ) : ℤ) by norm_num, zpow_natCast]
    exact h
  · rw [hp, div_le_iff₀ (by positivity), ← zpow_natCast, ← zpow_add₀ (by norm_num : (2:ℝ) ≠ 0)]
    have : (113 : ℕ).factorial * (226 - 113 : ℕ).factorial ≤ 2 ^ 1234 := by decide +kernel
    have h := Nat.cast_le (α := ℝ).2 this
    rw [Nat.cast_pow, Nat.cast_ofNat (n := 2)] at h
    rw [show (-1026 : ℤ) + ((2260 : ℕ) : ℤ) = ((1234 : ℕ) : ℤ) by norm_num, zpow_natCast]
    exact h

/-! ## Instances -/

section Examples

theorem binary64_isDouble : binary64.IsDouble := ⟨binary64_u, rfl, rfl, rfl⟩

theorem npProd_exists (f : Fin n → FP) : ∃ a, F.NpProd f a := by
  rcases isEmpty_or_nonempty (Fin n) with h | h
  · exact ⟨_, Or.inl ⟨h, rfl⟩⟩
  · obtain ⟨a, ha⟩ := reduce_exists (op := F.mul) f (Finset.univ_nonempty (α := Fin n))
    exact ⟨a, Or.inr ha⟩

theorem npSum_exists (f : Fin n → FP) : ∃ a, F.NpSum f a := by
  rcases isEmpty_or_nonempty (Fin n) with h | h
  · exact ⟨_, Or.inl ⟨h, rfl⟩⟩
  · obtain ⟨a, ha⟩ := reduce_exists (op := F.add) f (Finset.univ_nonempty (α := Fin n))
    exact ⟨a, Or.inr ha⟩

theorem fast_exists (F : Format) (x : Fin n → ℝ) : ∃ w, F.Fast x w := by
  choose p hp using fun i => npProd_exists (F := F) (F.diffs x i)
  exact ⟨_, p, hp, fun i => rfl⟩

theorem row_exists (F : Format) (x : Fin n → ℝ) (w : Fin n → FP) (t : ℝ) : ∃ P, F.InterpolationRow x w t P := by
  obtain ⟨S, hS⟩ := npSum_exists (F := F) (F.rowTerms x w t)
  exact ⟨_, S, hS, fun j => rfl⟩

theorem abs_log_le {d : ℝ} (h1 : 1 / 4 ≤ |d|) (h2 : |d| ≤ 1) : |Real.log d| ≤ 3 := by
  rw [← Real.log_abs, abs_of_nonpos (Real.log_nonpos (abs_nonneg _) h2)]
  have := Real.one_sub_inv_le_log_of_pos (x := |d|) (by linarith)
  have h3 : |d|⁻¹ ≤ 4 := by
    rw [inv_le_comm₀ (by linarith) (by norm_num)]
    linarith
  linarith

/-- Three points with distances between one half and one. -/
theorem pts3_log (i : Fin 3) : ∑ k ∈ Finset.univ.erase i, |Real.log (pts3 i - pts3 k)| ≤ 9 := by
  have h : ∀ k ∈ Finset.univ.erase i, |Real.log (pts3 i - pts3 k)| ≤ 3 := fun k hk => by
    have hk := Finset.ne_of_mem_erase hk
    apply abs_log_le <;> revert hk <;> fin_cases i <;> fin_cases k <;> norm_num [pts3, abs_of_pos, abs_of_neg]
  refine (Finset.sum_le_sum h).trans ?_
  simp
  norm_num

/-- Weights of three points, and an entry of a row. -/
example : ∃ (w P : Fin 3 → FP) (e : ℝ), binary64.Fast pts3 w ∧ binary64.InterpolationRow pts3 w (1 / 4) P ∧ (∀ i, ∃ e, w i = .fin e ∧ e ≠ 0) ∧
    P 1 = .fin e ∧ |e - (Lagrange.basis Finset.univ pts3 1).eval (1 / 4)| ≤ (1 / 2) ^ 40 := by
  obtain ⟨w, hw⟩ := fast_exists binary64 pts3
  obtain ⟨P, hP⟩ := row_exists binary64 pts3 w (1 / 4)
  obtain ⟨e, h1, h2⟩ := C90_interpolation binary64_isDouble (by norm_num) pts3_injective (fun i => (pts3_log i).trans (by norm_num))
    (Or.inl hw) (t := 1 / 4) (fun j => ⟨pts3_ne j, (abs_log_le (by fin_cases j <;> norm_num [pts3, abs_of_pos, abs_of_neg])
      (by fin_cases j <;> norm_num [pts3, abs_of_pos, abs_of_neg])).trans (by norm_num)⟩) hP
    (by rw [pts3_lebesgue, gamma]; norm_num) 1
  refine ⟨w, P, e, hw, hP, fun i => ?_, h1, h2.trans ?_⟩
  · obtain ⟨e, h1, h2, -⟩ := C90_fast binary64_isDouble (by norm_num) pts3_injective (fun i => (pts3_log i).trans (by norm_num))
      (Or.inl hw) i
    exact ⟨e, h1, h2⟩
  · have hl : |(Lagrange.basis Finset.univ pts3 1).eval (1 / 4)| ≤ lebesgue pts3 (1 / 4) :=
      Finset.single_le_sum (f := fun j => |(Lagrange.basis Finset.univ pts3 j).eval (1 / 4)|) (fun _ _ => abs_nonneg _)
        (Finset.mem_univ 1)
    rw [pts3_lebesgue] at hl ⊢
    have ht : (2:ℝ) ^ (-1074 : ℤ) ≤ 2 ^ (-60 : ℤ) := zpow_le_zpow_right₀ (by norm_num) (by norm_num)
    refine (add_le_add (mul_le_mul_of_nonneg_left hl ?_) ht).trans ?_ <;> · rw [gamma]; norm_num

/-- A row of these points is exact at the second one. -/
example : ∃ (w P : Fin 3 → FP), binary64.Fast pts3 w ∧ binary64.InterpolationRow pts3 w (pts3 1) P ∧ P 0 = .fin 0 ∧ P 1 = .fin 1 := by
  obtain ⟨w, hw⟩ := fast_exists binary64 pts3
  obtain ⟨P, hP⟩ := row_exists binary64 pts3 w (pts3 1)
  have h := C90_nodes binary64_isDouble (by norm_num) pts3_injective (fun i => (pts3_log i).trans (by norm_num)) (Or.inl hw) 1 hP
  exact ⟨w, P, hw, hP, by simpa using h 0, by simpa using h 1⟩

/-- 'STABLE' with two points. -/
example : ∃ w : Fin 2 → FP, binary64.LogScaleMax elementary64 ![0, 1] w ∧ ∀ i, ∃ e, w i = .fin e := by
  have hd : ∀ i j : Fin 2, i ≠ j → |Real.log ((![0, 1] : Fin 2 → ℝ) i - (![0, 1] : Fin 2 → ℝ) j)| ≤ 0 := fun i j hij => by
    revert hij
    fin_cases i <;> fin_cases j <;> simp
  have hinj : Function.Injective (![0, 1] : Fin 2 → ℝ) := fun i j h => by
    revert h
    fin_cases i <;> fin_cases j <;> simp
  have h0 : ∀ i, ∃ a, binary64.NpSum (fun j => elementary64.logAbs (binary64.diffs ![0, 1] i j)) a := fun i => npSum_exists _
  choose a ha using h0
  have ha0 : ∀ i, a i = .fin 0 := fun i => by
    refine reduce_add_zero (fun j _ => ?_) (npSum_reduce (ha i) (by norm_num))
    have hlog : elementary64.logAbs (.fin 1) = .fin 0 := by
      change FP.fin (flDouble (Real.log |1|)) = _
      rw [abs_one, Real.log_one]
      exact congrArg FP.fin binary64.fl_zero
    have hlog' : elementary64.logAbs (.fin (-1)) = .fin 0 := by
      change FP.fin (flDouble (Real.log |-1|)) = _
      rw [abs_neg, abs_one, Real.log_one]
      exact congrArg FP.fin binary64.fl_zero
    have h1 : binary64.rnd 1 = .fin 1 := by
      rw [binary64_isDouble.range one_ne_zero (by simp), binary64.R.one]
    have hf1 : binary64.fl 1 = 1 := by
      rw [binary64.fl_normal 1 (by rw [abs_one]; exact binary64.small_le_one), binary64.R.one]
    have h2 : binary64.rnd (-1) = .fin (-1) := by
      rw [rnd, binary64.fl_neg 1 hf1, if_neg (by rw [abs_neg, abs_one, not_lt]; exact binary64.one_le_large)]
    fin_cases i <;> fin_cases j <;> simp [Format.diffs, h1, h2, hlog, hlog']
  have hw : ∃ w : Fin 2 → FP, binary64.LogScaleMax elementary64 ![0, 1] w :=
    ⟨_, fun i => neg (a i), fun i => ⟨a i, ha i, rfl⟩, 0, fun i => Or.inl (by change neg (a i) = neg (a 0); rw [ha0, ha0]), fun i => rfl⟩
  obtain ⟨w, hw⟩ := hw
  obtain ⟨⟨c, -, h⟩, -⟩ := C90_stable binary64_isDouble elementary64 (by norm_num) hinj (fun i j hij => (hd i j hij).trans (by norm_num)) hw
    (T := 0) (fun j => Finset.sum_nonpos fun k hk => by rw [Real.log_abs]; exact hd j k (Finset.ne_of_mem_erase hk).symm)
  refine ⟨w, hw, fun i => ?_⟩
  obtain ⟨e, he, -⟩ := h i
  exact ⟨e, he⟩

/-- With 200 integers: there are weights, and all of them are zero. -/
example : ∃ w : Fin 200 → FP, binary64.Fast (fun i : Fin 200 => ((i : ℕ) : ℝ)) w ∧ ∀ i, w i = .fin 0 := by
  obtain ⟨w, hw⟩ := fast_exists binary64 (fun i : Fin 200 => ((i : ℕ) : ℝ))
  exact ⟨w, hw, (C90_integers_fails binary64_isDouble (by norm_num) (by norm_num) (Or.inl hw)).1⟩

/-- The points of `C90_short_fails`. -/
example : ∃ (w P : Fin 227 → FP), binary64.Fast (fun i : Fin 227 => (i : ℕ) * (1 / 1024 : ℝ)) w ∧
    binary64.InterpolationRow (fun i : Fin 227 => (i : ℕ) * (1 / 1024 : ℝ)) w (1 / 3) P ∧ P 113 = .nan := by
  obtain ⟨w, hw⟩ := fast_exists binary64 (fun i : Fin 227 => (i : ℕ) * (1 / 1024 : ℝ))
  obtain ⟨P, hP⟩ := row_exists binary64 (fun i : Fin 227 => (i : ℕ) * (1 / 1024 : ℝ)) w (1 / 3)
  exact ⟨w, P, hw, hP, (C90_short_fails binary64_isDouble (Or.inl hw)).2 _ P hP⟩

end Examples

end QMat
