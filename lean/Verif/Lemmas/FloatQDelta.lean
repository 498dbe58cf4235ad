import Verif.Model.FloatQDelta
import Verif.Lemmas.TimeStep
import Verif.Lemmas.RoundingLagrange

/-!
# Entries of `QDelta` matrices in rounded arithmetic
-/

namespace QMat

open Matrix

namespace Rounding

variable {M : ℕ} (R : Rounding)

/-- `a` comes from `x` with an absolute error `ε`, after `n` roundings. -/
def Apx (n : ℕ) (ε a x : ℝ) : Prop := |a - x| ≤ ((1 + R.u) ^ n - 1) * |x| + (1 + R.u) ^ n * ε

variable {R}

theorem one_le_pow' (n : ℕ) : 1 ≤ (1 + R.u) ^ n := one_le_pow₀ (by linarith [R.u_nonneg])

theorem apx_of {ε a x : ℝ} (h : |a - x| ≤ ε) : R.Apx 0 ε a x := by simpa [Apx] using h

theorem apx_self {n : ℕ} {ε : ℝ} (hε : 0 ≤ ε) (x : ℝ) : R.Apx n ε x x := by
  have h := one_le_pow' (R := R) n
  have h1 := mul_nonneg (sub_nonneg.2 h) (abs_nonneg x)
  have h2 : 0 ≤ (1 + R.u) ^ n * ε := by positivity
  simp only [Apx, sub_self, abs_zero]
  linarith

theorem Apx.mono {n m : ℕ} {ε ε' a x : ℝ} (h : R.Apx n ε a x) (hnm : n ≤ m) (hε : 0 ≤ ε) (hε' : ε ≤ ε') : R.Apx m ε' a x := by
  have h1 : (1 + R.u) ^ n ≤ (1 + R.u) ^ m := pow_le_pow_right₀ (by linarith [R.u_nonneg]) hnm
  have h2 := mul_le_mul_of_nonneg_right (sub_le_sub_right h1 1) (abs_nonneg x)
  have h3 : (1 + R.u) ^ n * ε ≤ (1 + R.u) ^ m * ε' :=
    mul_le_mul h1 hε' hε (le_trans (by positivity) (le_trans zero_le_one (one_le_pow' m)))
  exact h.trans (add_le_add h2 h3)

theorem Apx.fl {n : ℕ} {ε a x : ℝ} (h : R.Apx n ε a x) : R.Apx (n + 1) ε (R.fl a) x := by
  have h0 := R.u_nonneg
  have h1 := R.err a
  have h2 : |a| ≤ |x| + |a - x| := by
    have := abs_add_le x (a - x)
    rwa [add_sub_cancel] at this
  have h3 : |R.fl a - x| ≤ |R.fl a - a| + |a - x| := by
    have := abs_add_le (R.fl a - a) (a - x)
    rwa [sub_add_sub_cancel] at this
  have h4 := mul_le_mul_of_nonneg_left h2 h0
  have h5 := mul_le_mul_of_nonneg_left h (by linarith : (0:ℝ) ≤ 1 + R.u)
  unfold Apx at h5 ⊢
  rw [pow_succ]
  linarith

theorem Apx.add {n : ℕ} {ε ε' a b x y : ℝ} (h : R.Apx n ε a x) (h' : R.Apx n ε' b y) (hx : 0 ≤ x) (hy : 0 ≤ y) :
    R.Apx n (ε + ε') (a + b) (x + y) := by
  unfold Apx at *
  rw [abs_of_nonneg hx] at h
  rw [abs_of_nonneg hy] at h'
  rw [abs_of_nonneg (add_nonneg hx hy), show a + b - (x + y) = (a - x) + (b - y) by ring]
  exact (abs_add_le _ _).trans (by linarith)

theorem Apx.div {n : ℕ} {ε a x d : ℝ} (h : R.Apx n ε a x) (hd : 0 < d) : R.Apx n (ε / d) (a / d) (x / d) := by
  unfold Apx at *
  rw [← sub_div, abs_div, abs_div, abs_of_pos hd, ← mul_div_assoc, ← mul_div_assoc, ← add_div]
  exact div_le_div_of_nonneg_right h hd.le

theorem fl_zero' : R.fl 0 = 0 := by
  have := R.err 0
  simpa using this

/-! ## Entries -/

theorem foldl_addSubDiag (v : ℕ → ℝ) (l : List ℕ) (hl : l.Nodup) (QD : Matrix (Fin M) (Fin M) ℝ) (hQD : ∀ r c, R.fl (QD r c) = QD r c)
    (r c : Fin M) :
    l.foldl (fun QD i => R.addSubDiag i v QD) QD r c = if ∃ i ∈ l, (r : ℕ) = i + c then R.fl (QD r c + v c) else QD r c := by
  induction l generalizing QD with
  | nil => simp
  | cons a l ih =>
    have hval : ∀ r c : Fin M, R.addSubDiag a v QD r c = if (r : ℕ) = a + c then R.fl (QD r c + v c) else QD r c := by
      intro r c
      simp only [addSubDiag, Matrix.of_apply]
      by_cases h : (r : ℕ) = a + c
      · rw [if_pos ⟨by omega, by omega⟩, if_pos h, if_pos h]
      · rw [if_neg h, if_neg h, add_zero, hQD, ite_self]
    rw [List.foldl_cons, ih (List.nodup_cons.mp hl).2]
    · have ha := (List.nodup_cons.mp hl).1
      simp only [hval, List.exists_mem_cons_iff]
      by_cases h1 : (r : ℕ) = a + c
      · have h2 : ¬ ∃ i ∈ l, (r : ℕ) = i + c := by
          rintro ⟨i, hi, h⟩
          have : i = a := by omega
          exact ha (this ▸ hi)
        rw [if_neg h2, if_pos h1, if_pos (Or.inl h1)]
      · simp [h1]
    · intro r c
      rw [hval]
      split_ifs
      · exact R.idem _
      · exact hQD r c

theorem loopBE_apply (g : TimeStepping M) (QD : Matrix (Fin M) (Fin M) ℝ) (hQD : ∀ r c, R.fl (QD r c) = QD r c) (r c : Fin M) :
    R.loopBE g QD r c = if c ≤ r then R.fl (QD r c + g.deltas c) else QD r c := by
  unfold loopBE
  rw [foldl_addSubDiag _ _ List.nodup_range _ hQD]
  have : (∃ i ∈ List.range M, (r : ℕ) = i + c) ↔ c ≤ r := by
    constructor
    · rintro ⟨i, -, h⟩
      exact Fin.le_def.mpr (by omega)
    · intro h
      have := Fin.le_def.mp h
      exact ⟨r - c, by simp; omega, by omega⟩
  rw [if_congr this rfl rfl]
  simp [atPos]

theorem loopFE_apply (g : TimeStepping M) (QD : Matrix (Fin M) (Fin M) ℝ) (hQD : ∀ r c, R.fl (QD r c) = QD r c) (r c : Fin M) :
    R.loopFE g QD r c = if c < r then R.fl (QD r c + atPos g.deltas (c + 1)) else QD r c := by
  unfold loopFE
  rw [foldl_addSubDiag _ _ List.nodup_range' _ hQD]
  have : (∃ i ∈ List.range' 1 (M - 1), (r : ℕ) = i + c) ↔ c < r := by
    constructor
    · rintro ⟨i, hi, h⟩
      simp only [List.mem_range'_1] at hi
      exact Fin.lt_def.mpr (by omega)
    · intro h
      have := Fin.lt_def.mp h
      exact ⟨r - c, by simp only [List.mem_range'_1]; omega, by omega⟩
  rw [if_congr this rfl rfl, Nat.add_comm]

/-- `__init__` in rounded arithmetic and the exact one: the steps are rounded once. -/
theorem timeStepping_ok {nodes : Fin M → ℝ} {tLeft : ℝ} {g : TimeStepping M} (h : R.timeStepping nodes tLeft = .ok g) :
    ∃ g', TimeStepping.new nodes tLeft = .ok g' ∧ g.nodes = nodes ∧ g.tLeft = tLeft ∧ ∀ i, g.deltas i = R.fl (g'.deltas i) := by
  unfold timeStepping at h
  split_ifs at h with hM
  cases h
  refine ⟨_, if_pos hM, rfl, rfl, fun i => ?_⟩
  simp only
  split_ifs <;> rfl

/-- The steps of perturbed nodes. -/
theorem deltas_err {x x' : Fin M → ℝ} {tLeft e : ℝ} {g g' : TimeStepping M} (hg : TimeStepping.new x tLeft = .ok g)
    (hg' : TimeStepping.new x' tLeft = .ok g') (he : ∀ i, |x' i - x i| ≤ e) (i : Fin M) : |g'.deltas i - g.deltas i| ≤ 2 * e := by
  rw [(g.new_ok hg).2.2.2, (g'.new_ok hg').2.2.2]
  have h0 : 0 ≤ e := (abs_nonneg _).trans (he i)
  split_ifs with hi
  · rw [sub_sub_sub_cancel_right]
    linarith [he i]
  · rw [sub_sub_sub_comm]
    have := abs_sub (x' i - x i) (x' ⟨i - 1, by omega⟩ - x ⟨i - 1, by omega⟩)
    linarith [he i, he ⟨i - 1, by omega⟩]

end Rounding

end QMat
