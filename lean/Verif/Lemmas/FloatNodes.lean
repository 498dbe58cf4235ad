import Verif.Model.FloatNodes
import Verif.Lemmas.NodesSpec
import Verif.Lemmas.Weyl

/-!
# Recurrences of orthogonal polynomials at the ends in rounded arithmetic
-/

namespace QMat

open Polynomial NodesGenerator Spec

theorem Rounding.fl_rel (R : Rounding) (x : ℝ) : ∃ φ, |φ - 1| ≤ R.u ∧ R.fl x = x * φ := by
  by_cases hx : x = 0
  · refine ⟨1, by rw [sub_self, abs_zero]; exact R.u_nonneg, ?_⟩
    have := R.err x
    rw [hx, abs_zero, mul_zero, sub_zero] at this
    rw [hx, abs_nonpos_iff.1 this, zero_mul]
  · refine ⟨R.fl x / x, ?_, by field_simp⟩
    have := R.err x
    rw [div_sub_one hx, abs_div, div_le_iff₀ (abs_pos.2 hx)]
    exact this

theorem abs_mul_sub_one_le {φ ψ a b : ℝ} (h1 : |φ - 1| ≤ a) (h2 : |ψ - 1| ≤ b) : |φ * ψ - 1| ≤ a + b + a * b := by
  have e : φ * ψ - 1 = (φ - 1) + (ψ - 1) + (φ - 1) * (ψ - 1) := by ring
  have ha := (abs_nonneg _).trans h1
  rw [e]
  refine (abs_add_le _ _).trans (add_le_add ((abs_add_le _ _).trans (add_le_add h1 h2)) ?_)
  rw [abs_mul]
  exact mul_le_mul h1 h2 (abs_nonneg _) ha

/-- One step of the recurrence of ratios. -/
theorem ratio_step {s s' s'' r r' β E u φ1 φ2 φ3 : ℝ} (hs : 0 < s) (hr : 0 < r) (hE : E ≤ 1 / 50) (hEu : E ^ 2 ≤ u)
    (hu : u ≤ 1 / 1000) (h : |s' - r * s| ≤ E * (r * s)) (hr' : r' = 1 - β / r) (hh : 1 / 2 ≤ r') (hβ : 0 ≤ β)
    (h1 : |φ1 - 1| ≤ 3 * u) (h2 : |φ2 - 1| ≤ 4 * u) (h3 : |φ3 - 1| ≤ u) (he : s'' = (s' * φ1 - s * β * φ2) * φ3) :
    0 < s' ∧ |s'' - r' * s'| ≤ (E + 13 * u) * (r' * s') := by
  have hy : 0 < r * s := mul_pos hr hs
  set y := r * s
  have hE0 : 0 ≤ E := by
    by_contra hc
    have h1 := (abs_nonneg _).trans h
    have h2 := mul_neg_of_neg_of_pos (not_le.1 hc) hy
    linarith
  have hu0 : 0 ≤ u := (sq_nonneg E).trans hEu
  have hs' : 0 < s' := by
    have h1 := (abs_le.1 h).1
    have h2 := mul_le_mul_of_nonneg_right hE hy.le
    linarith
  refine ⟨hs', ?_⟩
  set q := β / r with hq
  have hq0 : 0 ≤ q := div_nonneg hβ hr.le
  have hβs : s * β = q * y := by rw [hq]; simp only [y]; field_simp
  have hqr : q ≤ r' := by linarith
  have hys : y ≤ s' * (1 + E + 2 * E ^ 2) := by
    have h4 : (1 - E) * y ≤ s' := by have := (abs_le.1 h).1; linarith
    have h5 : (1:ℝ) ≤ (1 - E) * (1 + E + 2 * E ^ 2) := by
      have := mul_nonneg (sq_nonneg E) (by linarith : 0 ≤ 1 - 2 * E)
      linarith
    have h6 : y ≤ (1 - E) * y * (1 + E + 2 * E ^ 2) := by
      have := mul_le_mul_of_nonneg_right h5 hy.le
      linarith
    exact h6.trans (mul_le_mul_of_nonneg_right h4 (by positivity))
  set T := s' * φ1 - q * y * φ2 - r' * s' with hT
  have hTe : T = s' * (φ1 - 1) + q * (s' - y) - q * y * (φ2 - 1) := by
    rw [hT]
    have : s' - r' * s' = q * s' := by rw [hr']; ring
    linear_combination this
  have t1 : |s' * (φ1 - 1)| ≤ 3 * u * s' := by
    rw [abs_mul, abs_of_pos hs', mul_comm]; exact mul_le_mul_of_nonneg_right h1 hs'.le
  have t2 : |q * (s' - y)| ≤ q * (E * y) := by
    rw [abs_mul, abs_of_nonneg hq0]; exact mul_le_mul_of_nonneg_left h hq0
  have t3 : |q * y * (φ2 - 1)| ≤ q * y * (4 * u) := by
    rw [abs_mul, abs_of_nonneg (by positivity : 0 ≤ q * y)]; exact mul_le_mul_of_nonneg_left h2 (by positivity)
  have hT1 : |T| ≤ 3 * u * s' + q * y * (E + 4 * u) := by
    rw [hTe]
    refine (abs_sub _ _).trans ?_
    have := abs_add_le (s' * (φ1 - 1)) (q * (s' - y))
    linarith
  have hrs : 0 < r' * s' := mul_pos (by linarith) hs'
  have hT2 : |T| ≤ (E + 11.5 * u) * (r' * s') := by
    refine hT1.trans ?_
    have a1 : 3 * u * s' ≤ 6 * u * (r' * s') := by
      have := mul_le_mul_of_nonneg_right hh (mul_nonneg hu0 hs'.le)
      linarith
    have a2 : q * y ≤ r' * (s' * (1 + E + 2 * E ^ 2)) := mul_le_mul hqr hys hy.le (by linarith)
    have a3 : q * y * (E + 4 * u) ≤ r' * (s' * (1 + E + 2 * E ^ 2)) * (E + 4 * u) :=
      mul_le_mul_of_nonneg_right a2 (by positivity)
    have a4 : (1 + E + 2 * E ^ 2) * (E + 4 * u) ≤ E + 5.5 * u := by
      have b1 : E * u ≤ 1 / 50 * u := mul_le_mul_of_nonneg_right hE hu0
      have b2 : E ^ 2 * E ≤ u * (1 / 50) := mul_le_mul hEu hE hE0 hu0
      have b3 : E ^ 2 * u ≤ u * (1 / 1000) := mul_le_mul hEu hu hu0 hu0
      linarith
    have a5 := mul_le_mul_of_nonneg_left a4 hrs.le
    linarith
  have hfin : s'' - r' * s' = T * φ3 + r' * s' * (φ3 - 1) := by
    rw [he, hT, hβs]; ring
  have hφ3 : |φ3| ≤ 1 + u := by
    have := abs_add_le (φ3 - 1) 1
    rw [sub_add_cancel, abs_one] at this
    linarith
  rw [hfin]
  refine (abs_add_le _ _).trans ?_
  rw [abs_mul, abs_mul, abs_of_pos hrs]
  have c1 : |T| * |φ3| ≤ (E + 11.5 * u) * (r' * s') * (1 + u) := mul_le_mul hT2 hφ3 (abs_nonneg _) (by positivity)
  have c2 : r' * s' * |φ3 - 1| ≤ r' * s' * u := mul_le_mul_of_nonneg_left h3 hrs.le
  have c3 : (E + 11.5 * u) * u ≤ 0.5 * u := mul_le_mul_of_nonneg_right (by norm_num; linarith) hu0
  have c4 := mul_le_mul_of_nonneg_right c3 hrs.le
  linarith

/-- Lower bounds of ratios of all node types. -/
theorem ratio_half {nt : String} (hnt : nt ∈ ORTHO_TYPES) {b : ℝ} (hb : b = 1 ∨ b = -1) :
    ∃ ρ, RatioBound (fun k => b * baseAlpha nt k) (baseBeta nt) ρ ∧ ∀ k, 1 ≤ k → 1 / 2 ≤ ρ k := by
  simp only [ORTHO_TYPES, List.mem_cons, List.not_mem_nil, or_false] at hnt
  have hk' : ∀ k : ℕ, 1 ≤ k → (1:ℝ) ≤ k := fun k hk => by exact_mod_cast hk
  rcases hnt with rfl | rfl | rfl | rfl | rfl
  · refine ⟨fun k => (k:ℝ) / (2 * k - 1), ⟨fun k hk => ?_, ?_, fun k hk => by simp [baseAlpha], fun k hk => ?_, fun k hk => ?_⟩, fun k hk => ?_⟩
    · have := hk' k hk
      exact div_pos (by linarith) (by linarith)
    · simp [baseAlpha]; norm_num
    · have := hk' k hk
      simp only [baseBeta, if_true]
      rw [if_neg (by omega)]
      exact div_pos (by nlinarith) (by nlinarith)
    · have := hk' k hk
      simp only [baseBeta, if_true]
      rw [if_neg (by omega)]
      have h1 : (2 * (k:ℝ) - 1) ≠ 0 := by linarith
      have h2 : (2 * (k:ℝ) + 1) ≠ 0 := by linarith
      have h3 : (k:ℝ) ≠ 0 := by linarith
      push_cast
      rw [show (4 * (k:ℝ) ^ 2 - 1) = (2 * (k:ℝ) - 1) * (2 * (k:ℝ) + 1) by ring,
        show (2 * ((k:ℝ) + 1) - 1) = 2 * (k:ℝ) + 1 by ring]
      apply le_of_eq
      rw [div_div_eq_mul_div, eq_sub_iff_add_eq, div_mul_eq_mul_div, div_div,
        ← eq_sub_iff_add_eq, div_eq_iff (by positivity)]
      field_simp
      ring
    · have := hk' k hk
      rw [div_le_div_iff₀ (by norm_num) (by linarith)]
      linarith
  · refine ⟨fun k => if k = 1 then 1 else 1 / 2, ⟨fun k hk => ?_, ?_, fun k hk => by simp [baseAlpha], fun k hk => ?_, fun k hk => ?_⟩,
      fun k hk => ?_⟩
    · split_ifs <;> norm_num
    · simp [baseAlpha]
    · simp only [baseBeta, String.reduceEq, if_true, if_false]
      split_ifs <;> first | omega | norm_num
    · simp only [baseBeta, String.reduceEq, if_true, if_false]
      split_ifs <;> first | omega | norm_num
    · dsimp only
      split_ifs <;> norm_num
  all_goals
    refine ⟨_, ratioBound_half ?_ (fun k hk => ?_) fun k hk => ?_, fun k hk => le_rfl⟩
    · rcases hb with rfl | rfl <;> simp [baseAlpha] <;> norm_num
    · simp [baseAlpha, show k ≠ 0 by omega]
    · simp [baseBeta, show k ≠ 0 by omega]; norm_num

theorem Rounding.fl_zero (R : Rounding) : R.fl 0 = 0 := by
  obtain ⟨φ, _, h⟩ := R.fl_rel 0
  rw [h, zero_mul]

theorem Rounding.evalOrthogPoly_succ (R : Rounding) (t : ℝ) (α β : ℕ → ℝ) (m : ℕ) :
    R.evalOrthogPoly t α β (m + 1) = ((R.evalOrthogPoly t α β m).2,
      R.fl (R.fl ((R.evalOrthogPoly t α β m).2 * R.fl (t - α m)) - R.fl ((R.evalOrthogPoly t α β m).1 * β m))) := by
  have h : ∀ m, (((List.range m).map fun j => (α j, β j)).foldl (R.orthogPolyStep t) (0, 1, 1)).2.2 =
      (((List.range m).map fun j => (α j, β j)).foldl (R.orthogPolyStep t) (0, 1, 1)).2.1 := by
    intro m
    cases m with
    | zero => rfl
    | succ m =>
      simp only [List.range_succ, List.map_append, List.foldl_append, List.map_cons, List.map_nil,
        List.foldl_cons, List.foldl_nil]
      rfl
  unfold Rounding.evalOrthogPoly
  simp only [List.range_succ, List.map_append, List.foldl_append, List.map_cons, List.map_nil,
    List.foldl_cons, List.foldl_nil]
  simp only [Rounding.orthogPolyStep]
  rw [h m]

/-- Computed values of the orthogonal polynomials at `b = 1` or `b = -1`, without their signs. -/
noncomputable def fval (R : Rounding) (b : ℝ) (α β : ℕ → ℝ) (k : ℕ) : ℝ := b ^ k * (R.evalOrthogPoly b α β k).2

/-- Exact ratios of the values at `b`. -/
noncomputable def endRatio (b : ℝ) (α β : ℕ → ℝ) (k : ℕ) : ℝ :=
  (orthPoly (fun k => b * α k) β (k + 1)).eval 1 / (orthPoly (fun k => b * α k) β k).eval 1

section

variable {nt : String} {b : ℝ}

theorem endRatio_half (hnt : nt ∈ ORTHO_TYPES) (hb : b = 1 ∨ b = -1) (k : ℕ) : 1 / 2 ≤ endRatio b (baseAlpha nt) (baseBeta nt) k := by
  obtain ⟨ρ, h, hρ⟩ := ratio_half hnt hb
  obtain ⟨h1, h2⟩ := h.pos_ratio le_rfl k
  rw [endRatio, le_div_iff₀ h1]
  exact (mul_le_mul_of_nonneg_right (hρ (k + 1) (by omega)) h1.le).trans h2

theorem baseAlpha_succ (nt : String) (k : ℕ) : baseAlpha nt (k + 1) = 0 := by
  simp [baseAlpha]

theorem baseBeta_pos (hnt : nt ∈ ORTHO_TYPES) {k : ℕ} (hk : 1 ≤ k) : 0 < baseBeta nt k := by
  obtain ⟨ρ, h, -⟩ := ratio_half hnt (Or.inl rfl)
  exact h.beta k hk

theorem endRatio_zero (nt : String) (b : ℝ) : endRatio b (baseAlpha nt) (baseBeta nt) 0 = 1 - b * baseAlpha nt 0 := by
  simp [endRatio, orthPoly]

theorem endRatio_succ (hnt : nt ∈ ORTHO_TYPES) (hb : b = 1 ∨ b = -1) (k : ℕ) : endRatio b (baseAlpha nt) (baseBeta nt) (k + 1) =
    1 - baseBeta nt (k + 1) / endRatio b (baseAlpha nt) (baseBeta nt) k := by
  obtain ⟨ρ, h, hρ⟩ := ratio_half hnt hb
  have h1 := h.eval_pos le_rfl k
  have h2 := h.eval_pos le_rfl (k + 1)
  simp only [endRatio]
  rw [eval_orthPoly_succ, baseAlpha_succ]
  field_simp
  ring

theorem endRatio_le (hnt : nt ∈ ORTHO_TYPES) (hb : b = 1 ∨ b = -1) (k : ℕ) : endRatio b (baseAlpha nt) (baseBeta nt) k ≤ 3 / 2 := by
  cases k with
  | zero =>
    rw [endRatio_zero]
    simp only [ORTHO_TYPES, List.mem_cons, List.not_mem_nil, or_false] at hnt
    rcases hnt with rfl | rfl | rfl | rfl | rfl <;> rcases hb with rfl | rfl <;> simp [baseAlpha] <;> norm_num
  | succ k =>
    rw [endRatio_succ hnt hb]
    have h1 := endRatio_half hnt hb k
    have h2 := baseBeta_pos hnt (k := k + 1) (by omega)
    have : 0 ≤ baseBeta nt (k + 1) / endRatio b (baseAlpha nt) (baseBeta nt) k := div_nonneg h2.le (by linarith)
    linarith

/-- Ratios of computed values. -/
theorem fval_ratio {R : Rounding} (hnt : nt ∈ ORTHO_TYPES) (hb : b = 1 ∨ b = -1) {β' : ℕ → ℝ} {N : ℕ} (hN : (N:ℝ) ^ 2 * R.u ≤ 1 / 1000)
    (hβ : ∀ k, 1 ≤ k → k < N → ∃ φ, |φ - 1| ≤ R.u ∧ β' k = baseBeta nt k * φ) (k : ℕ) (hk : k + 1 ≤ N) :
    0 < fval R b (baseAlpha nt) β' k ∧
    |fval R b (baseAlpha nt) β' (k + 1) - endRatio b (baseAlpha nt) (baseBeta nt) k * fval R b (baseAlpha nt) β' k| ≤
      13 * (k + 1) * R.u * (endRatio b (baseAlpha nt) (baseBeta nt) k * fval R b (baseAlpha nt) β' k) := by
  have hu := R.u_nonneg
  have hbb : b * b = 1 := by rcases hb with rfl | rfl <;> norm_num
  have hNk : ∀ j : ℕ, j ≤ N → (j:ℝ) ^ 2 * R.u ≤ 1 / 1000 := fun j hj => by
    have : (j:ℝ) ≤ N := by exact_mod_cast hj
    exact (mul_le_mul_of_nonneg_right (pow_le_pow_left₀ (Nat.cast_nonneg j) this 2) hu).trans hN
  have hu1 : R.u ≤ 1 / 1000 := by simpa using hNk 1 (by omega)
  induction k with
  | zero =>
    have e0 : fval R b (baseAlpha nt) β' 0 = 1 := by simp [fval, Rounding.evalOrthogPoly]
    obtain ⟨φ1, h1, p1⟩ := R.fl_rel (b - baseAlpha nt 0)
    obtain ⟨φ2, h2, p2⟩ := R.fl_rel ((b - baseAlpha nt 0) * φ1)
    obtain ⟨φ3, h3, p3⟩ := R.fl_rel ((b - baseAlpha nt 0) * φ1 * φ2)
    have e1 : fval R b (baseAlpha nt) β' 1 = (1 - b * baseAlpha nt 0) * (φ1 * φ2 * φ3) := by
      rw [fval, Rounding.evalOrthogPoly_succ]
      have : R.evalOrthogPoly b (baseAlpha nt) β' 0 = (0, 1) := rfl
      rw [this]
      simp only [zero_mul, one_mul, R.fl_zero, sub_zero, p1, p2, p3]
      linear_combination (φ1 * φ2 * φ3) * hbb
    rw [zero_add, e0, e1, mul_one, endRatio_zero]
    refine ⟨one_pos, ?_⟩
    have hr := endRatio_half hnt hb 0
    rw [endRatio_zero] at hr
    have h12 := abs_mul_sub_one_le (abs_mul_sub_one_le h1 h2) h3
    rw [← mul_sub_one, abs_mul, abs_of_pos (by linarith : 0 < 1 - b * baseAlpha nt 0), mul_comm]
    refine mul_le_mul_of_nonneg_right (h12.trans ?_) (by linarith)
    push_cast
    have := mul_le_mul_of_nonneg_left hu1 hu
    nlinarith
  | succ k ih =>
    obtain ⟨i1, i2⟩ := ih (by omega)
    set r := endRatio b (baseAlpha nt) (baseBeta nt) k with hr
    have hr0 : 0 < r := by have := endRatio_half hnt hb k; linarith
    set s := fval R b (baseAlpha nt) β' k with hs
    set s' := fval R b (baseAlpha nt) β' (k + 1) with hs'
    obtain ⟨φ0, h0, p0⟩ := hβ (k + 1) (by omega) (by omega)
    obtain ⟨φ1, h1, p1⟩ := R.fl_rel b
    obtain ⟨φ2, h2, p2⟩ := R.fl_rel ((R.evalOrthogPoly b (baseAlpha nt) β' (k + 1)).2 * (b * φ1))
    obtain ⟨φ3, h3, p3⟩ := R.fl_rel ((R.evalOrthogPoly b (baseAlpha nt) β' k).2 * (baseBeta nt (k + 1) * φ0))
    obtain ⟨φ4, h4, p4⟩ := R.fl_rel ((R.evalOrthogPoly b (baseAlpha nt) β' (k + 1)).2 * (b * φ1) * φ2
      - (R.evalOrthogPoly b (baseAlpha nt) β' k).2 * (baseBeta nt (k + 1) * φ0) * φ3)
    have e2 : fval R b (baseAlpha nt) β' (k + 1 + 1) = (s' * (φ1 * φ2) - s * baseBeta nt (k + 1) * (φ0 * φ3)) * φ4 := by
      have hprev : (R.evalOrthogPoly b (baseAlpha nt) β' (k + 1)).1 = (R.evalOrthogPoly b (baseAlpha nt) β' k).2 := by
        rw [Rounding.evalOrthogPoly_succ]
      rw [fval, Rounding.evalOrthogPoly_succ R b (baseAlpha nt) β' (k + 1)]
      simp only
      rw [hprev, baseAlpha_succ, sub_zero, p1, p2, p0, p3, p4, hs', hs, fval, fval]
      rw [pow_succ b (k + 1), pow_succ b k]
      linear_combination (b ^ k * b * (R.evalOrthogPoly b (baseAlpha nt) β' (k + 1)).2 * φ1 * φ2 * φ4
        - b ^ k * (R.evalOrthogPoly b (baseAlpha nt) β' k).2 * baseBeta nt (k + 1) * φ0 * φ3 * φ4) * hbb
    have q2 := mul_le_mul_of_nonneg_left hu1 hu
    have h12 : |φ1 * φ2 - 1| ≤ 3 * R.u := (abs_mul_sub_one_le h1 h2).trans (by linarith)
    have h03 : |φ0 * φ3 - 1| ≤ 4 * R.u := (abs_mul_sub_one_le h0 h3).trans (by linarith)
    have hk1 : ((k:ℝ) + 1) ^ 2 * R.u ≤ 1 / 1000 := by have := hNk (k + 1) (by omega); push_cast at this; exact this
    have hk0 : (0:ℝ) ≤ k := Nat.cast_nonneg k
    have hE : 13 * ((k:ℝ) + 1) * R.u ≤ 1 / 50 := by
      have : ((k:ℝ) + 1) * R.u ≤ ((k:ℝ) + 1) ^ 2 * R.u := mul_le_mul_of_nonneg_right (by nlinarith) hu
      linarith
    have hEu : (13 * ((k:ℝ) + 1) * R.u) ^ 2 ≤ R.u := by
      have := mul_le_mul_of_nonneg_left hk1 hu
      nlinarith
    obtain ⟨j1, j2⟩ := ratio_step i1 hr0 hE hEu hu1 i2 (endRatio_succ hnt hb k) (endRatio_half hnt hb (k + 1))
      (baseBeta_pos hnt (by omega)).le h12 h03 h4 e2
    refine ⟨j1, j2.trans (le_of_eq ?_)⟩
    push_cast
    ring

/-- Values themselves. -/
theorem fval_close {R : Rounding} (hnt : nt ∈ ORTHO_TYPES) (hb : b = 1 ∨ b = -1) {β' : ℕ → ℝ} {N : ℕ} (hN : (N:ℝ) ^ 2 * R.u ≤ 1 / 1000)
    (hβ : ∀ k, 1 ≤ k → k < N → ∃ φ, |φ - 1| ≤ R.u ∧ β' k = baseBeta nt k * φ) (k : ℕ) (hk : k ≤ N) :
    (1 - 13 * (k:ℝ) ^ 2 * R.u) * (orthPoly (fun k => b * baseAlpha nt k) (baseBeta nt) k).eval 1 ≤ fval R b (baseAlpha nt) β' k ∧
    fval R b (baseAlpha nt) β' k ≤ (1 + 26 * (k:ℝ) ^ 2 * R.u) * (orthPoly (fun k => b * baseAlpha nt k) (baseBeta nt) k).eval 1 := by
  have hu := R.u_nonneg
  obtain ⟨ρ, h, -⟩ := ratio_half hnt hb
  induction k with
  | zero => simp [fval, Rounding.evalOrthogPoly, orthPoly]
  | succ k ih =>
    obtain ⟨i1, i2⟩ := ih (by omega)
    obtain ⟨j1, j2⟩ := fval_ratio hnt hb hN hβ k hk
    have hP := h.eval_pos le_rfl k
    have hP' := h.eval_pos le_rfl (k + 1)
    have hk0 : (0:ℝ) ≤ k := Nat.cast_nonneg k
    have hk1 : ((k:ℝ) + 1) ^ 2 * R.u ≤ 1 / 1000 := by
      have h1 : ((k:ℝ) + 1) ≤ N := by exact_mod_cast hk
      exact (mul_le_mul_of_nonneg_right (pow_le_pow_left₀ (by positivity) h1 2) hu).trans hN
    have er : (orthPoly (fun k => b * baseAlpha nt k) (baseBeta nt) (k + 1)).eval 1 =
        endRatio b (baseAlpha nt) (baseBeta nt) k * (orthPoly (fun k => b * baseAlpha nt k) (baseBeta nt) k).eval 1 := by
      rw [endRatio, div_mul_cancel₀ _ hP.ne']
    have hr0 : 0 < endRatio b (baseAlpha nt) (baseBeta nt) k := by have := endRatio_half hnt hb k; linarith
    rw [er]
    set r := endRatio b (baseAlpha nt) (baseBeta nt) k
    set P := (orthPoly (fun k => b * baseAlpha nt k) (baseBeta nt) k).eval 1
    set s := fval R b (baseAlpha nt) β' k
    set s' := fval R b (baseAlpha nt) β' (k + 1)
    push_cast
    set E := 13 * ((k:ℝ) + 1) * R.u with hE
    have hE1 : E ≤ 1 := by
      have : ((k:ℝ) + 1) * R.u ≤ ((k:ℝ) + 1) ^ 2 * R.u := mul_le_mul_of_nonneg_right (by nlinarith) hu
      rw [hE]; linarith
    have hE0 : 0 ≤ E := by positivity
    obtain ⟨l1, l2⟩ := abs_le.1 j2
    constructor
    · have a1 : (1 - E) * (r * ((1 - 13 * (k:ℝ) ^ 2 * R.u) * P)) ≤ (1 - E) * (r * s) :=
        mul_le_mul_of_nonneg_left (mul_le_mul_of_nonneg_left i1 hr0.le) (by linarith)
      have a2 : (1 - 13 * ((k:ℝ) + 1) ^ 2 * R.u) ≤ (1 - E) * (1 - 13 * (k:ℝ) ^ 2 * R.u) := by
        have : 0 ≤ E * (13 * (k:ℝ) ^ 2 * R.u) := by positivity
        rw [hE] at this ⊢
        nlinarith [mul_nonneg hk0 hu]
      have a3 := mul_le_mul_of_nonneg_right a2 (mul_pos hr0 hP).le
      linarith
    · have a1 : (1 + E) * (r * s) ≤ (1 + E) * (r * ((1 + 26 * (k:ℝ) ^ 2 * R.u) * P)) :=
        mul_le_mul_of_nonneg_left (mul_le_mul_of_nonneg_left i2 hr0.le) (by linarith)
      have a2 : (1 + E) * (1 + 26 * (k:ℝ) ^ 2 * R.u) ≤ 1 + 26 * ((k:ℝ) + 1) ^ 2 * R.u := by
        have b1 : (k:ℝ) ^ 2 * R.u ≤ 1 / 1000 := le_trans (mul_le_mul_of_nonneg_right (by nlinarith) hu) hk1
        have b2 : E * ((k:ℝ) ^ 2 * R.u) ≤ E * (1 / 1000) := mul_le_mul_of_nonneg_left b1 hE0
        rw [hE] at b2 ⊢
        nlinarith [mul_nonneg hk0 hu]
      have a3 := mul_le_mul_of_nonneg_right a2 (mul_pos hr0 hP).le
      linarith

/-- The last coefficient of the RADAU types. -/
theorem radau_err {R : Rounding} (hnt : nt ∈ ORTHO_TYPES) (hb : b = 1 ∨ b = -1) {β' : ℕ → ℝ} {m : ℕ}
    (hN : ((m + 1 : ℕ):ℝ) ^ 2 * R.u ≤ 1 / 1000)
    (hβ : ∀ k, 1 ≤ k → k < m + 1 → ∃ φ, |φ - 1| ≤ R.u ∧ β' k = baseBeta nt k * φ) :
    (R.evalOrthogPoly b (baseAlpha nt) β' m).2 ≠ 0 ∧
    |R.fl (b - R.fl (R.fl (β' m * (R.evalOrthogPoly b (baseAlpha nt) β' m).1) / (R.evalOrthogPoly b (baseAlpha nt) β' m).2)) -
      b * radauRight (fun k => b * baseAlpha nt k) (baseBeta nt) m| ≤ 8 * (m + 1) * R.u := by
  have hu := R.u_nonneg
  have hbb : b * b = 1 := by rcases hb with rfl | rfl <;> norm_num
  have hb1 : |b| = 1 := by rcases hb with rfl | rfl <;> simp
  cases m with
  | zero =>
    have e : R.evalOrthogPoly b (baseAlpha nt) β' 0 = (0, 1) := rfl
    rw [e]
    refine ⟨one_ne_zero, ?_⟩
    have : radauRight (fun k => b * baseAlpha nt k) (baseBeta nt) 0 = 1 := by simp [radauRight, prevPoly]
    simp only [mul_zero, R.fl_zero, zero_div, sub_zero, this, mul_one]
    refine (R.err b).trans ?_
    rw [hb1]; push_cast; linarith
  | succ k =>
    obtain ⟨i1, i2⟩ := fval_ratio hnt hb hN hβ k (by omega)
    obtain ⟨i3, -⟩ := fval_ratio hnt hb hN hβ (k + 1) (by omega)
    have hprev : (R.evalOrthogPoly b (baseAlpha nt) β' (k + 1)).1 = (R.evalOrthogPoly b (baseAlpha nt) β' k).2 := by
      rw [Rounding.evalOrthogPoly_succ]
    obtain ⟨ρ, hρ, -⟩ := ratio_half hnt hb
    have hP := hρ.eval_pos le_rfl k
    have hP' := hρ.eval_pos le_rfl (k + 1)
    have hex : radauRight (fun k => b * baseAlpha nt k) (baseBeta nt) (k + 1) =
        1 - baseBeta nt (k + 1) / endRatio b (baseAlpha nt) (baseBeta nt) k := by
      rw [radauRight, prevPoly, endRatio]
      field_simp
    have hhalf := endRatio_half hnt hb (k + 1)
    rw [endRatio_succ hnt hb] at hhalf
    have hr0 : 0 < endRatio b (baseAlpha nt) (baseBeta nt) k := by have := endRatio_half hnt hb k; linarith
    have hβ0 := baseBeta_pos hnt (k := k + 1) (by omega)
    rw [hprev, hex]
    unfold fval at i1 i2 i3
    set e1 := (R.evalOrthogPoly b (baseAlpha nt) β' k).2
    set e2 := (R.evalOrthogPoly b (baseAlpha nt) β' (k + 1)).2
    have he2 : e2 ≠ 0 := fun h => by rw [h, mul_zero] at i3; exact lt_irrefl _ i3
    refine ⟨he2, ?_⟩
    set r := endRatio b (baseAlpha nt) (baseBeta nt) k
    set q := baseBeta nt (k + 1) / r with hq
    have hq0 : 0 ≤ q := div_nonneg hβ0.le hr0.le
    obtain ⟨φ0, h0, p0⟩ := hβ (k + 1) (by omega) (by omega)
    obtain ⟨φ1, h1, p1⟩ := R.fl_rel (baseBeta nt (k + 1) * φ0 * e1)
    obtain ⟨φ2, h2, p2⟩ := R.fl_rel (baseBeta nt (k + 1) * φ0 * e1 * φ1 / e2)
    rw [p0, p1, p2]
    set s := b ^ k * e1 with hs
    set s' := b ^ (k + 1) * e2 with hs'
    have hbk : b ^ k ≠ 0 := pow_ne_zero _ fun h => by rw [h] at hbb; norm_num at hbb
    have hb0 : b ≠ 0 := fun h => by rw [h] at hbb; norm_num at hbb
    have hmain : baseBeta nt (k + 1) * φ0 * e1 * φ1 / e2 * φ2 = b * (q * (r * s / s' * (φ0 * φ1 * φ2))) := by
      rw [hq, hs, hs', pow_succ]
      field_simp
    rw [hmain]
    have hk0 : (0:ℝ) ≤ k := Nat.cast_nonneg k
    push_cast at hN ⊢
    have hk2 : ((k:ℝ) + 1) * R.u ≤ 1 / 1000 := by
      have : ((k:ℝ) + 1) * R.u ≤ ((k:ℝ) + 1 + 1) ^ 2 * R.u := mul_le_mul_of_nonneg_right (by nlinarith) hu
      linarith
    have hu1 : R.u ≤ 1 / 1000 := by
      have := mul_nonneg hk0 hu
      linarith
    have huu := mul_le_mul_of_nonneg_left hu1 hu
    have hψ : |φ0 * φ1 * φ2 - 1| ≤ 4 * R.u := (abs_mul_sub_one_le (abs_mul_sub_one_le h0 h1) h2).trans (by
      have : R.u * R.u * R.u ≤ R.u * (1 / 1000) * 1 := mul_le_mul huu (by linarith) hu (by positivity)
      linarith)
    set ψ := φ0 * φ1 * φ2
    set E := 13 * ((k:ℝ) + 1) * R.u with hE
    have hE1 : E ≤ 1 / 50 := by rw [hE]; linarith
    have hE0 : 0 ≤ E := by positivity
    have hy : 0 < r * s := mul_pos hr0 i1
    have hfrac : |r * s / s' - 1| ≤ 1.05 * E := by
      rw [div_sub_one i3.ne', abs_div, abs_of_pos i3, div_le_iff₀ i3, abs_sub_comm]
      refine i2.trans ?_
      have h4 : (1 - E) * (r * s) ≤ s' := by have := (abs_le.1 i2).1; linarith
      have h5 : (1 - 1 / 50) * (r * s) ≤ (1 - E) * (r * s) := mul_le_mul_of_nonneg_right (by linarith) hy.le
      have h6 : r * s ≤ 1.05 * s' := by linarith
      have h7 := mul_le_mul_of_nonneg_left h6 hE0
      linarith
    have hz := abs_mul_sub_one_le hfrac hψ
    set z := r * s / s' * ψ
    have hz' : |z - 1| ≤ 1.06 * E + 4 * R.u := by
      refine hz.trans ?_
      have : 1.05 * E * (4 * R.u) ≤ 1.05 * E * (4 * (1 / 1000)) := by
        apply mul_le_mul_of_nonneg_left <;> [linarith; positivity]
      linarith
    obtain ⟨φ3, h3, p3⟩ := R.fl_rel (b - b * (q * z))
    rw [p3]
    have hq1 : q ≤ 1 / 2 := by linarith
    have hqz : |q * (z - 1)| ≤ 1 / 2 * (1.06 * E + 4 * R.u) := by
      rw [abs_mul, abs_of_nonneg hq0]
      exact mul_le_mul hq1 hz' (abs_nonneg _) (by norm_num)
    have hfin : (b - b * (q * z)) * φ3 - b * (1 - q) = b * ((1 - q) * (φ3 - 1) - q * (z - 1) * φ3) := by ring
    rw [hfin, abs_mul, hb1, one_mul]
    refine (abs_sub _ _).trans ?_
    have c1 : |(1 - q) * (φ3 - 1)| ≤ 1 * R.u := by
      rw [abs_mul, abs_of_nonneg (by linarith)]
      exact mul_le_mul (by linarith) h3 (abs_nonneg _) (by norm_num)
    have hφ3 : |φ3| ≤ 1 + 1 / 1000 := by
      have := abs_add_le (φ3 - 1) 1
      rw [sub_add_cancel, abs_one] at this
      linarith
    have c2 : |q * (z - 1) * φ3| ≤ 1 / 2 * (1.06 * E + 4 * R.u) * (1 + 1 / 1000) := by
      rw [abs_mul]
      exact mul_le_mul hqz hφ3 (abs_nonneg _) (by positivity)
    have := mul_nonneg hk0 hu
    refine (add_le_add c1 c2).trans ?_
    rw [hE]
    norm_num
    linarith

end

/-- A system of two equations as for the LOBATTO types. -/
theorem lobatto_system {r r' ρ ρ' x y x0 y0 E u τ φ1 φ2 : ℝ} (hr : 1 / 2 ≤ r) (hr' : 1 / 2 ≤ r') (hr2 : r ≤ 3 / 2)
    (hE0 : 0 ≤ E) (hE : E ≤ 1 / 50) (hu0 : 0 ≤ u) (hu : u ≤ 1 / 1000) (hτ0 : 0 ≤ τ) (hτ : τ ≤ 1 / 100) (hρ : |ρ - r| ≤ E * r) (hρ' : |ρ' - r'| ≤ E * r')
    (h1 : |φ1 - 1| ≤ u) (h2 : |φ2 - 1| ≤ u) (e1 : r * x0 + y0 = r) (e2 : r' * x0 - y0 = -r')
    (a1 : |ρ' * x - y + ρ' * φ1| ≤ τ * (|x| + |y|)) (a2 : |ρ * x + y - ρ * φ2| ≤ τ * (|x| + |y|)) :
    |x - x0| ≤ 2.1 * E + 1.1 * u + 9 * τ ∧ |y - y0| ≤ 6.4 * E + 3.3 * u + 18 * τ ∧ |x| ≤ 1.2 := by
  set w := τ * (|x| + |y|) with hw
  have hx := abs_nonneg x
  have hy := abs_nonneg y
  obtain ⟨ρl, ρu⟩ := abs_le.1 hρ
  obtain ⟨ρl', ρu'⟩ := abs_le.1 hρ'
  have hEr : E * r ≤ 1 / 50 * r := mul_le_mul_of_nonneg_right hE (by linarith)
  have hEr' : E * r' ≤ 1 / 50 * r' := mul_le_mul_of_nonneg_right hE (by linarith)
  have hρ0 : 0.49 ≤ ρ := by norm_num; linarith
  have hρ0' : 0.49 ≤ ρ' := by norm_num; linarith
  have hρ1 : ρ ≤ 1.53 := by norm_num; linarith
  have hφ2 : |φ2| ≤ 1 + u := by
    have := abs_add_le (φ2 - 1) 1
    rw [sub_add_cancel, abs_one] at this
    linarith
  have hφ1 : |φ1| ≤ 1 + u := by
    have := abs_add_le (φ1 - 1) 1
    rw [sub_add_cancel, abs_one] at this
    linarith
  have hsum : |(ρ + ρ') * x - (ρ * φ2 - ρ' * φ1)| ≤ 2 * w := by
    have e : (ρ + ρ') * x - (ρ * φ2 - ρ' * φ1) = (ρ' * x - y + ρ' * φ1) + (ρ * x + y - ρ * φ2) := by ring
    rw [e]
    refine (abs_add_le _ _).trans ?_
    linarith
  have hw0 : 0 ≤ w := (abs_nonneg _).trans a1
  have hxb : |x| ≤ 1.001 + 2.05 * w := by
    have t1 : |(ρ + ρ') * x| ≤ 2 * w + |ρ * φ2 - ρ' * φ1| := by
      have := abs_add_le ((ρ + ρ') * x - (ρ * φ2 - ρ' * φ1)) (ρ * φ2 - ρ' * φ1)
      rw [sub_add_cancel] at this
      linarith
    have t2 : |ρ * φ2 - ρ' * φ1| ≤ (ρ + ρ') * (1 + u) := by
      refine (abs_sub _ _).trans ?_
      rw [abs_mul, abs_mul, abs_of_pos (by linarith : 0 < ρ), abs_of_pos (by linarith : 0 < ρ'), add_mul]
      exact add_le_add (mul_le_mul_of_nonneg_left hφ2 (by linarith)) (mul_le_mul_of_nonneg_left hφ1 (by linarith))
    rw [abs_mul, abs_of_pos (by linarith : 0 < ρ + ρ')] at t1
    have t3 : (ρ + ρ') * |x| ≤ (ρ + ρ') * (1.001 + 2.05 * w) := by
      have t4 : 2 * w ≤ (ρ + ρ') * (2.05 * w) := by
        have := mul_le_mul_of_nonneg_right (by norm_num at hρ0 hρ0' ⊢; linarith : 0.98 ≤ ρ + ρ') hw0
        linarith
      have t5 : (ρ + ρ') * (1 + u) ≤ (ρ + ρ') * 1.001 := mul_le_mul_of_nonneg_left (by norm_num; linarith) (by linarith)
      linarith
    exact le_of_mul_le_mul_left t3 (by linarith)
  have hyb : |y| ≤ 1.53 * (1.001 + |x|) + w := by
    have t1 : |y| ≤ |ρ * x + y - ρ * φ2| + |ρ * φ2| + |ρ * x| := by
      have e : y = (ρ * x + y - ρ * φ2) + ρ * φ2 - ρ * x := by ring
      calc |y| = |(ρ * x + y - ρ * φ2) + ρ * φ2 - ρ * x| := by rw [← e]
        _ ≤ |(ρ * x + y - ρ * φ2) + ρ * φ2| + |ρ * x| := abs_sub _ _
        _ ≤ _ := by linarith [abs_add_le (ρ * x + y - ρ * φ2) (ρ * φ2)]
    rw [abs_mul, abs_mul, abs_of_pos (by linarith : 0 < ρ)] at t1
    have t2 : ρ * |φ2| ≤ 1.53 * 1.001 := mul_le_mul hρ1 (by norm_num; linarith) (abs_nonneg _) (by norm_num)
    have t3 : ρ * |x| ≤ 1.53 * |x| := mul_le_mul_of_nonneg_right hρ1 hx
    linarith
  have hwN : w ≤ 1 / 100 * (|x| + |y|) := mul_le_mul_of_nonneg_right hτ (by linarith)
  have hNb : |x| + |y| ≤ 4.4 := by norm_num at hxb hyb ⊢; linarith
  have hw1 : w ≤ 4.4 * τ := by
    rw [hw, mul_comm]; exact mul_le_mul_of_nonneg_right hNb hτ0
  have hx1 : |x| ≤ 1.1 := by norm_num at hxb hNb ⊢; linarith
  have hρφ : ∀ {ρ r φ : ℝ}, |ρ - r| ≤ E * r → 1 / 2 ≤ r → |φ - 1| ≤ u → |ρ * φ - r| ≤ r * (E + 1.02 * u) := fun {ρ r φ} hρ hr hφ => by
    have e : ρ * φ - r = ρ * (φ - 1) + (ρ - r) := by ring
    rw [e]
    refine (abs_add_le _ _).trans ?_
    have hEr : E * r ≤ 1 / 50 * r := mul_le_mul_of_nonneg_right hE (by linarith)
    have t1 : |ρ| ≤ 1.02 * r := by
      rw [abs_of_pos (by linarith [(abs_le.1 hρ).1])]
      norm_num
      linarith [(abs_le.1 hρ).2]
    rw [abs_mul]
    have := mul_le_mul t1 hφ (abs_nonneg _) (by linarith)
    linarith
  have f1 := hρφ hρ hr h2
  have f2 := hρφ hρ' hr' h1
  have hdx : |x - x0| ≤ 2.1 * E + 1.02 * u + 2 * w := by
    have e : (r + r') * (x - x0) = ((ρ + ρ') * x - (ρ * φ2 - ρ' * φ1)) + (ρ * φ2 - r) - (ρ' * φ1 - r') - ((ρ - r) + (ρ' - r')) * x := by
      linear_combination (-1) * e1 + (-1) * e2
    have t0 : |(ρ - r) + (ρ' - r')| ≤ E * (r + r') := by
      refine (abs_add_le _ _).trans ?_
      linarith
    have t1 : |((ρ - r) + (ρ' - r')) * x| ≤ E * (r + r') * 1.1 := by
      rw [abs_mul]
      exact mul_le_mul t0 hx1 hx (mul_nonneg hE0 (by linarith))
    have t2 : |(r + r') * (x - x0)| ≤ 2 * w + r * (E + 1.02 * u) + r' * (E + 1.02 * u) + E * (r + r') * 1.1 := by
      rw [e]
      refine (abs_sub _ _).trans ?_
      have u1 := abs_sub (((ρ + ρ') * x - (ρ * φ2 - ρ' * φ1)) + (ρ * φ2 - r)) (ρ' * φ1 - r')
      have u2 := abs_add_le ((ρ + ρ') * x - (ρ * φ2 - ρ' * φ1)) (ρ * φ2 - r)
      linarith
    rw [abs_mul, abs_of_pos (by linarith : 0 < r + r')] at t2
    have t3 : 2 * w ≤ (r + r') * (2 * w) := by
      have := mul_le_mul_of_nonneg_right (by linarith : 1 ≤ r + r') hw0
      linarith
    have t4 : (r + r') * |x - x0| ≤ (r + r') * (2.1 * E + 1.02 * u + 2 * w) := by linarith
    exact le_of_mul_le_mul_left t4 (by linarith)
  refine ⟨by norm_num at hdx hw1 ⊢; linarith, ?_, by norm_num at hx1 ⊢; linarith⟩
  have e : y - y0 = (ρ * x + y - ρ * φ2) + (ρ * φ2 - r) - (ρ - r) * x - r * (x - x0) := by linear_combination (-1) * e1
  have t1 : |(ρ - r) * x| ≤ E * r * 1.1 := by
    rw [abs_mul]
    exact mul_le_mul hρ hx1 hx (mul_nonneg hE0 (by linarith))
  have t2 : |r * (x - x0)| ≤ r * (2.1 * E + 1.02 * u + 2 * w) := by
    rw [abs_mul, abs_of_pos (by linarith)]
    exact mul_le_mul_of_nonneg_left hdx (by linarith)
  have u0 : |y - y0| ≤ w + r * (E + 1.02 * u) + E * r * 1.1 + r * (2.1 * E + 1.02 * u + 2 * w) := by
    rw [e]
    refine (abs_sub _ _).trans ?_
    have u1 := abs_sub ((ρ * x + y - ρ * φ2) + (ρ * φ2 - r)) ((ρ - r) * x)
    have u2 := abs_add_le (ρ * x + y - ρ * φ2) (ρ * φ2 - r)
    linarith
  have t3 : r * (4.2 * E + 2.04 * u + 2 * w) ≤ 3 / 2 * (4.2 * E + 2.04 * u + 2 * w) := mul_le_mul_of_nonneg_right hr2 (by positivity)
  norm_num at u0 t3 hw1 ⊢
  linarith

/-! ### Coefficients -/

theorem nodeBeta_eq {R : Rounding} {nt : String} (hnt : nt ∈ ORTHO_TYPES) {N : ℕ} (hint : ∀ k : ℕ, k ≤ 4 * N ^ 2 → R.fl k = k) {k : ℕ} (h1 : 1 ≤ k)
    (hk : k < N) : ∃ φ, |φ - 1| ≤ R.u ∧ R.nodeBeta nt k = baseBeta nt k * φ := by
  have one : ∀ x : ℝ, ∃ φ, |φ - 1| ≤ R.u ∧ x = x * φ := fun x => ⟨1, by rw [sub_self, abs_zero]; exact R.u_nonneg, (mul_one x).symm⟩
  have hk0 : k ≠ 0 := by omega
  have hkN : k ^ 2 ≤ N ^ 2 := Nat.pow_le_pow_left hk.le 2
  simp only [ORTHO_TYPES, List.mem_cons, List.not_mem_nil, or_false] at hnt
  rcases hnt with rfl | rfl | rfl | rfl | rfl
  · simp only [Rounding.nodeBeta, baseBeta, if_true, hk0, if_false]
    have e1 : R.fl ((k:ℝ) ^ 2) = (k:ℝ) ^ 2 := by have := hint (k ^ 2) (by omega); push_cast at this; exact this
    have e2 : R.fl (4 * (k:ℝ) ^ 2) = 4 * (k:ℝ) ^ 2 := by have := hint (4 * k ^ 2) (by omega); push_cast at this; exact this
    have e3 : R.fl (4 * (k:ℝ) ^ 2 - 1) = 4 * (k:ℝ) ^ 2 - 1 := by
      have h4 : 1 ≤ 4 * k ^ 2 := by have := Nat.pow_le_pow_left h1 2; omega
      have := hint (4 * k ^ 2 - 1) (by omega)
      push_cast [h4] at this
      exact this
    rw [e1, e2, e3]
    exact R.fl_rel _
  all_goals
    simp only [Rounding.nodeBeta, baseBeta, String.reduceEq, if_false, if_true, hk0]
    exact one _

theorem baseBeta_le {nt : String} (hnt : nt ∈ ORTHO_TYPES) {k : ℕ} (h1 : 1 ≤ k) : baseBeta nt k ≤ 1 / 2 := by
  have hk0 : k ≠ 0 := by omega
  simp only [ORTHO_TYPES, List.mem_cons, List.not_mem_nil, or_false] at hnt
  rcases hnt with rfl | rfl | rfl | rfl | rfl
  · simp only [baseBeta, if_true, hk0, if_false]
    have : (1:ℝ) ≤ k := by exact_mod_cast h1
    rw [div_le_div_iff₀ (by nlinarith) (by norm_num)]
    nlinarith
  all_goals
    simp only [baseBeta, String.reduceEq, if_false, if_true, hk0]
    first | (split_ifs <;> norm_num) | norm_num

theorem sqrt_rel_err {R : Rounding} (hu : R.u ≤ 1 / 1000) {β φ : ℝ} (hβ0 : 0 ≤ β) (hβ : β ≤ 1 / 2) (hφ : |φ - 1| ≤ R.u) :
    |R.fl (√(β * φ)) - √β| ≤ 1.5 * R.u := by
  have hu0 := R.u_nonneg
  have hφ0 : 0 ≤ φ := by have := (abs_le.1 hφ).1; linarith
  obtain ⟨ψ, h1, h2⟩ := R.fl_rel (√(β * φ))
  have h3 : |√φ - 1| ≤ R.u := by
    have e : (√φ - 1) * (√φ + 1) = φ - 1 := by have := Real.mul_self_sqrt hφ0; linear_combination this
    have h0 := Real.sqrt_nonneg φ
    rw [← e, abs_mul, abs_of_pos (by linarith : 0 < √φ + 1)] at hφ
    have := mul_nonneg (abs_nonneg (√φ - 1)) h0
    linarith
  rw [h2, Real.sqrt_mul hβ0, mul_assoc, ← mul_sub_one, abs_mul, abs_of_nonneg (Real.sqrt_nonneg β)]
  have h4 := abs_mul_sub_one_le h3 h1
  have h5 : √β ≤ 0.71 := Real.sqrt_le_iff.2 ⟨by norm_num, by norm_num; linarith⟩
  have h6 := mul_le_mul_of_nonneg_left hu hu0
  refine (mul_le_mul h5 (h4.trans (by linarith : _ ≤ 2.001 * R.u)) (abs_nonneg _) (by norm_num)).trans ?_
  norm_num
  linarith

theorem sqrt_abs_err {R : Rounding} {y y0 D : ℝ} (hy0 : 1 / 2 ≤ y0) (hy2 : y0 ≤ 3 / 2) (hD : |y - y0| ≤ D) (hD1 : D ≤ 0.4) :
    0 < y ∧ |R.fl (√y) - √y0| ≤ 1.42 * D + 1.4 * R.u ∧ √y ≤ 1.4 := by
  obtain ⟨l, r⟩ := abs_le.1 hD
  norm_num at hD1
  have hy : 0 < y := by linarith
  have s1 : √y ≤ 1.4 := Real.sqrt_le_iff.2 ⟨by norm_num, by norm_num; linarith⟩
  have s0 : 0.705 ≤ √y0 := Real.le_sqrt_of_sq_le (by norm_num; linarith)
  have sy := Real.sqrt_nonneg y
  refine ⟨hy, ?_, s1⟩
  have e : (√y - √y0) * (√y + √y0) = y - y0 := by
    have h1 := Real.mul_self_sqrt hy.le
    have h2 := Real.mul_self_sqrt (by linarith : 0 ≤ y0)
    linear_combination h1 - h2
  have h3 : |√y - √y0| ≤ 1.42 * D := by
    rw [← e, abs_mul, abs_of_pos (by norm_num at s0; linarith : 0 < √y + √y0)] at hD
    have := mul_le_mul_of_nonneg_left (by linarith : 0.705 ≤ √y + √y0) (abs_nonneg (√y - √y0))
    norm_num at this ⊢
    linarith [abs_nonneg (√y - √y0)]
  have h4 := R.err (√y)
  rw [abs_of_nonneg sy] at h4
  have h5 := mul_le_mul_of_nonneg_left s1 R.u_nonneg
  have h6 := abs_sub_le (R.fl (√y)) (√y) (√y0)
  linarith

/-- Skewness of the values at the ends. -/
theorem end_skew {nt : String} (hnt : nt ∈ ORTHO_TYPES) {b : ℝ} (hb : b = 1 ∨ b = -1) (k : ℕ) :
    (orthPoly (fun k => b * baseAlpha nt k) (baseBeta nt) k).eval 1 ≤
      (if nt = "CHEBY-3" ∨ nt = "CHEBY-4" then 2 * (k:ℝ) + 1 else 1) *
        (orthPoly (fun k => -b * baseAlpha nt k) (baseBeta nt) k).eval 1 := by
  have hk0 : (0:ℝ) ≤ k := Nat.cast_nonneg k
  have key : ∀ (α : ℕ → ℝ) (β : ℕ → ℝ), (∀ k, α (k + 1) = 0) → (∀ k, β (k + 1) = 1 / 4) → ∀ k : ℕ,
      (orthPoly α β k).eval 1 = (1 + k * (1 - 2 * α 0)) / 2 ^ k ∧
      (orthPoly α β (k + 1)).eval 1 = (1 + (k + 1) * (1 - 2 * α 0)) / 2 ^ (k + 1) := fun α β hα hβ k => by
    induction k with
    | zero =>
      refine ⟨by simp [orthPoly], ?_⟩
      simp [orthPoly]; ring
    | succ k ih =>
      refine ⟨by push_cast; exact ih.2, ?_⟩
      rw [eval_orthPoly_succ, ih.1, ih.2, hα, hβ]
      push_cast
      field_simp
      ring
  have h0 : ∀ k, ∀ b, b * baseAlpha nt (k + 1) = 0 := fun k b => by rw [baseAlpha_succ, mul_zero]
  simp only [ORTHO_TYPES, List.mem_cons, List.not_mem_nil, or_false] at hnt
  rcases hnt with rfl | rfl | rfl | rfl | rfl
  · simp [baseAlpha]
  · simp [baseAlpha]
  · simp [baseAlpha]
  · have hβ : ∀ k, baseBeta "CHEBY-3" (k + 1) = 1 / 4 := fun k => by simp [baseBeta]; norm_num
    rw [(key _ _ (fun k => h0 k b) hβ k).1, (key _ _ (fun k => h0 k (-b)) hβ k).1, if_pos (Or.inl rfl), ← mul_div_assoc]
    refine div_le_div_of_nonneg_right ?_ (by positivity)
    rcases hb with rfl | rfl <;> simp [baseAlpha] <;> norm_num <;> nlinarith
  · have hβ : ∀ k, baseBeta "CHEBY-4" (k + 1) = 1 / 4 := fun k => by simp [baseBeta]; norm_num
    rw [(key _ _ (fun k => h0 k b) hβ k).1, (key _ _ (fun k => h0 k (-b)) hβ k).1, if_pos (Or.inr rfl), ← mul_div_assoc]
    refine div_le_div_of_nonneg_right ?_ (by positivity)
    rcases hb with rfl | rfl <;> simp [baseAlpha] <;> norm_num <;> nlinarith

set_option maxHeartbeats 1000000 in
/-- The last coefficients of the LOBATTO types. -/
theorem lobatto_err {R : Rounding} (F : NodeOps) {nt : String} (hnt : nt ∈ ORTHO_TYPES) {β' : ℕ → ℝ} {k : ℕ}
    (hN : ((k + 2 : ℕ):ℝ) ^ 2 * R.u ≤ 1 / 1000)
    (hβ : ∀ j, 1 ≤ j → j < k + 2 → ∃ φ, |φ - 1| ≤ R.u ∧ β' j = baseBeta nt j * φ) {κ : ℝ}
    (hκ : κ = if nt = "CHEBY-3" ∨ nt = "CHEBY-4" then 2 * (k:ℝ) + 1 else 1) (hσ : 160 * κ * F.σ ≤ 1)
    {x0 y0 : ℝ} (hy : 0 < y0) (hL : LastSpec (baseAlpha nt) (baseBeta nt) (k + 1) x0 y0 True True) :
    ∃ x y, F.solve2 (R.evalOrthogPoly (-1) (baseAlpha nt) β' (k + 1)).2 (R.evalOrthogPoly (-1) (baseAlpha nt) β' (k + 1)).1
        (R.evalOrthogPoly 1 (baseAlpha nt) β' (k + 1)).2 (R.evalOrthogPoly 1 (baseAlpha nt) β' (k + 1)).1
        (R.fl (-1 * (R.evalOrthogPoly (-1) (baseAlpha nt) β' (k + 1)).2)) (R.fl (1 * (R.evalOrthogPoly 1 (baseAlpha nt) β' (k + 1)).2)) =
        .ok (x, y) ∧
      |x - x0| ≤ 2.1 * (13 * (k + 1) * R.u) + 1.1 * R.u + 9 * (1.6 * κ * F.σ) ∧ |x| ≤ 1.2 ∧ 0 < y ∧
      |R.fl (√y) - √y0| ≤ 1.42 * (6.4 * (13 * (k + 1) * R.u) + 3.3 * R.u + 18 * (1.6 * κ * F.σ)) + 1.4 * R.u ∧ √y ≤ 1.4 := by
  have hu := R.u_nonneg
  have hσ0 := F.σ_nonneg
  have hk0 : (0:ℝ) ≤ k := Nat.cast_nonneg k
  have hκ1 : 1 ≤ κ := by rw [hκ]; split_ifs <;> linarith
  have skew : ∀ {b : ℝ}, (b = 1 ∨ b = -1) → (orthPoly (fun k => b * baseAlpha nt k) (baseBeta nt) k).eval 1 ≤ κ *
      (orthPoly (fun k => -b * baseAlpha nt k) (baseBeta nt) k).eval 1 := fun hb => by rw [hκ]; exact end_skew hnt hb k
  have hb1 : (1:ℝ) = 1 ∨ (1:ℝ) = -1 := Or.inl rfl
  have hb2 : (-1:ℝ) = 1 ∨ (-1:ℝ) = -1 := Or.inr rfl
  obtain ⟨ρ1, g1, -⟩ := ratio_half hnt hb1
  obtain ⟨ρ2, g2, -⟩ := ratio_half hnt hb2
  have s1 := skew hb1
  have s2 := skew hb2
  rw [neg_neg] at s2
  obtain ⟨c1, c2⟩ := fval_close hnt hb1 hN hβ k (by omega)
  obtain ⟨c3, c4⟩ := fval_close hnt hb2 hN hβ k (by omega)
  obtain ⟨i1, i2⟩ := fval_ratio hnt hb1 hN hβ k (by omega)
  obtain ⟨j1, j2⟩ := fval_ratio hnt hb2 hN hβ k (by omega)
  have rh := endRatio_half hnt hb1 k
  have rh' := endRatio_half hnt hb2 k
  have rl := endRatio_le hnt hb1 k
  have rl' := endRatio_le hnt hb2 k
  have P1 := g1.eval_pos le_rfl k
  have P2 := g2.eval_pos le_rfl k
  -- the exact coefficients
  have x1 : endRatio 1 (baseAlpha nt) (baseBeta nt) k * x0 + y0 = endRatio 1 (baseAlpha nt) (baseBeta nt) k := by
    have h1 := hL.atRight.mpr trivial
    rw [eval_lastPoly] at h1
    simp only [endRatio, one_mul] at P1 ⊢
    simp only [prevPoly] at h1
    field_simp
    linarith
  have x2 : endRatio (-1) (baseAlpha nt) (baseBeta nt) k * x0 - y0 = -endRatio (-1) (baseAlpha nt) (baseBeta nt) k := by
    have h1 := hL.atLeft.mpr trivial
    have h2 := eval_lastPoly_neg (baseAlpha nt) (baseBeta nt) (k + 1) x0 y0 1
    rw [h1, mul_zero, eval_lastPoly] at h2
    simp only [endRatio, neg_one_mul] at P2 ⊢
    simp only [prevPoly] at h2
    field_simp
    linarith
  have y0h : 1 / 2 ≤ y0 ∧ y0 ≤ 3 / 2 := by
    generalize endRatio 1 (baseAlpha nt) (baseBeta nt) k = r at *
    generalize endRatio (-1) (baseAlpha nt) (baseBeta nt) k = r' at *
    have a1 : (1 - x0) * r = y0 := by linarith
    have a2 : (1 + x0) * r' = y0 := by linarith
    have b1 : 0 < 1 - x0 := by
      by_contra h
      have := mul_nonneg (by linarith : 0 ≤ -(1 - x0)) (by linarith : 0 ≤ r)
      linarith
    have b2 : 0 < 1 + x0 := by
      by_contra h
      have := mul_nonneg (by linarith : 0 ≤ -(1 + x0)) (by linarith : 0 ≤ r')
      linarith
    have d1 := mul_le_mul_of_nonneg_left rh b1.le
    have d2 := mul_le_mul_of_nonneg_left rh' b2.le
    have d3 := mul_le_mul_of_nonneg_left rl b1.le
    have d4 := mul_le_mul_of_nonneg_left rl' b2.le
    constructor <;> linarith
  have hprev : ∀ b, (R.evalOrthogPoly b (baseAlpha nt) β' (k + 1)).1 = (R.evalOrthogPoly b (baseAlpha nt) β' k).2 := fun b => by
    rw [Rounding.evalOrthogPoly_succ]
  rw [hprev, hprev]
  have hN1 : ((k:ℝ) + 2) ^ 2 * R.u ≤ 1 / 1000 := by push_cast at hN; exact hN
  have hk2 : (k:ℝ) ^ 2 * R.u ≤ 1 / 1000 := le_trans (mul_le_mul_of_nonneg_right (by nlinarith) hu) hN1
  have hku : ((k:ℝ) + 1) * R.u ≤ 1 / 1000 := le_trans (mul_le_mul_of_nonneg_right (by nlinarith) hu) hN1
  have hu1 : R.u ≤ 1 / 1000 := by have := mul_nonneg hk0 hu; linarith
  have e1 : fval R 1 (baseAlpha nt) β' k = (R.evalOrthogPoly 1 (baseAlpha nt) β' k).2 := by rw [fval, one_pow, one_mul]
  have e2 : fval R 1 (baseAlpha nt) β' (k + 1) = (R.evalOrthogPoly 1 (baseAlpha nt) β' (k + 1)).2 := by rw [fval, one_pow, one_mul]
  have hcc : ((-1:ℝ)) ^ k * (-1) ^ k = 1 := neg_one_pow_mul_self k
  have e3 : (R.evalOrthogPoly (-1) (baseAlpha nt) β' k).2 = (-1) ^ k * fval R (-1) (baseAlpha nt) β' k := by
    rw [fval, ← mul_assoc, hcc, one_mul]
  have e4 : (R.evalOrthogPoly (-1) (baseAlpha nt) β' (k + 1)).2 = -((-1) ^ k * fval R (-1) (baseAlpha nt) β' (k + 1)) := by
    rw [fval, pow_succ]
    linear_combination (-(R.evalOrthogPoly (-1) (baseAlpha nt) β' (k + 1)).2) * hcc
  rw [e3, e4, ← e1, ← e2]
  clear e1 e2 e3 e4 hprev hL
  generalize endRatio 1 (baseAlpha nt) (baseBeta nt) k = r at *
  generalize endRatio (-1) (baseAlpha nt) (baseBeta nt) k = r' at *
  generalize fval R 1 (baseAlpha nt) β' k = q at *
  generalize fval R (-1) (baseAlpha nt) β' k = q' at *
  generalize fval R 1 (baseAlpha nt) β' (k + 1) = p at *
  generalize fval R (-1) (baseAlpha nt) β' (k + 1) = p' at *
  generalize (orthPoly (fun k => 1 * baseAlpha nt k) (baseBeta nt) k).eval 1 = Pp at *
  generalize (orthPoly (fun k => -1 * baseAlpha nt k) (baseBeta nt) k).eval 1 = Pm at *
  have hc1 : |(-1:ℝ) ^ k| = 1 := by rw [abs_pow, abs_neg, abs_one, one_pow]
  generalize (-1:ℝ) ^ k = c at *
  have sk1 : q ≤ 1.04 * κ * q' := by
    have h1 : q ≤ 1.026 * Pp := c2.trans (mul_le_mul_of_nonneg_right (by norm_num; linarith) P1.le)
    have h2 : 0.987 * Pm ≤ q' := le_trans (mul_le_mul_of_nonneg_right (by norm_num; linarith) P2.le) c3
    have h3 : κ * (0.987 * Pm) ≤ κ * q' := mul_le_mul_of_nonneg_left h2 (by linarith)
    have h4 : 0 < κ * Pm := by positivity
    norm_num at h1 h3 ⊢
    linarith
  have sk2 : q' ≤ 1.04 * κ * q := by
    have h1 : q' ≤ 1.026 * Pm := c4.trans (mul_le_mul_of_nonneg_right (by norm_num; linarith) P2.le)
    have h2 : 0.987 * Pp ≤ q := le_trans (mul_le_mul_of_nonneg_right (by norm_num; linarith) P1.le) c1
    have h3 : κ * (0.987 * Pp) ≤ κ * q := mul_le_mul_of_nonneg_left h2 (by linarith)
    have h4 : 0 < κ * Pp := by positivity
    norm_num at h1 h3 ⊢
    linarith
  set E := 13 * ((k:ℝ) + 1) * R.u with hEdef
  have hE0 : 0 ≤ E := by positivity
  have hE : E ≤ 1 / 50 := by rw [hEdef]; linarith
  have hrq : 0 < r * q := mul_pos (by linarith) i1
  have hrq' : 0 < r' * q' := mul_pos (by linarith) j1
  have bd : ∀ {p r q : ℝ}, 0 < q → 1 / 2 ≤ r → r ≤ 3 / 2 → |p - r * q| ≤ E * (r * q) → 0.49 * q ≤ p ∧ p ≤ 1.53 * q := fun {p r q} hq h1 h2 h => by
    obtain ⟨l, u⟩ := abs_le.1 h
    have h3 := mul_le_mul_of_nonneg_right hE (mul_pos (by linarith : 0 < r) hq).le
    have h4 := mul_le_mul_of_nonneg_right h1 hq.le
    have h5 := mul_le_mul_of_nonneg_right h2 hq.le
    norm_num
    constructor <;> linarith
  obtain ⟨pl, pu⟩ := bd i1 rh rl i2
  obtain ⟨pl', pu'⟩ := bd j1 rh' rl' j2
  have hp0 : 0 < p := by norm_num at pl; linarith
  have hp0' : 0 < p' := by norm_num at pl'; linarith
  set mx := max q q' with hmx
  have m1 : q ≤ mx := le_max_left _ _
  have m2 : q' ≤ mx := le_max_right _ _
  have m0 : 0 < mx := lt_of_lt_of_le i1 m1
  have mq : mx ≤ 1.04 * κ * q := max_le (by norm_num at sk2 ⊢; nlinarith) sk2
  have mq' : mx ≤ 1.04 * κ * q' := max_le sk1 (by norm_num at sk1 ⊢; nlinarith)
  have mm : mx * mx ≤ 1.04 * κ * (q * q') := by
    rcases max_choice q q' with h | h
    · rw [hmx] at mq' ⊢
      rw [h] at mq' ⊢
      have := mul_le_mul_of_nonneg_left mq' i1.le
      linarith
    · rw [hmx] at mq ⊢
      rw [h] at mq ⊢
      have := mul_le_mul_of_nonneg_left mq j1.le
      linarith
  obtain ⟨φ1, f1, f1'⟩ := R.fl_rel (-1 * -(c * p'))
  obtain ⟨φ2, f2, f2'⟩ := R.fl_rel (1 * p)
  obtain ⟨x, y, hsol, ra, rb⟩ := F.solve2_err (-(c * p')) (c * q') p q (R.fl (-1 * -(c * p'))) (R.fl (1 * p)) (1.53 * mx)
    (by rw [abs_neg, abs_mul, hc1, one_mul, abs_of_pos hp0']; norm_num at pu' ⊢; linarith)
    (by rw [abs_mul, hc1, one_mul, abs_of_pos j1]; norm_num; linarith)
    (by rw [abs_of_pos hp0]; norm_num at pu ⊢; linarith) (by rw [abs_of_pos i1]; norm_num; linarith)
    (by
      have hd : -(c * p') * q - c * q' * p = c * -(p' * q + q' * p) := by ring
      rw [hd, abs_mul, hc1, one_mul, abs_neg, abs_of_pos (by positivity)]
      have d1 := mul_le_mul_of_nonneg_right pl' i1.le
      have d2 := mul_le_mul_of_nonneg_left pl j1.le
      have d3 := mul_le_mul_of_nonneg_left mm hσ0
      have d4 : 160 * κ * F.σ * (q * q') ≤ 1 * (q * q') := mul_le_mul_of_nonneg_right hσ (by positivity)
      have d5 : 0 < q * q' := by positivity
      norm_num at d1 d2 d3 ⊢
      nlinarith)
  rw [f1'] at ra
  rw [f2'] at rb
  set τ := 1.6 * κ * F.σ with hτdef
  have hτ0 : 0 ≤ τ := by positivity
  have hτ : τ ≤ 1 / 100 := by rw [hτdef]; norm_num; linarith
  have hxy : 0 ≤ |x| + |y| := by positivity
  have Kq : F.σ * (1.53 * mx) ≤ τ * q := by
    have := mul_le_mul_of_nonneg_left mq hσ0
    have h0 : 0 ≤ F.σ * (κ * q) := by positivity
    rw [hτdef]
    norm_num at this ⊢
    linarith
  have Kq' : F.σ * (1.53 * mx) ≤ τ * q' := by
    have := mul_le_mul_of_nonneg_left mq' hσ0
    have h0 : 0 ≤ F.σ * (κ * q') := by positivity
    rw [hτdef]
    norm_num at this ⊢
    linarith
  have res1 : |p' / q' * x - y + p' / q' * φ1| ≤ τ * (|x| + |y|) := by
    have e : -(c * p') * x + c * q' * y - -1 * -(c * p') * φ1 = c * -(q' * (p' / q' * x - y + p' / q' * φ1)) := by
      field_simp
      ring
    rw [e, abs_mul, hc1, one_mul, abs_neg, abs_mul, abs_of_pos j1] at ra
    have h1 := ra.trans (mul_le_mul_of_nonneg_right Kq' hxy)
    rw [mul_comm τ q', mul_assoc] at h1
    exact le_of_mul_le_mul_left h1 j1
  have res2 : |p / q * x + y - p / q * φ2| ≤ τ * (|x| + |y|) := by
    have e : p * x + q * y - 1 * p * φ2 = q * (p / q * x + y - p / q * φ2) := by
      field_simp
    rw [e, abs_mul, abs_of_pos i1] at rb
    have h1 := rb.trans (mul_le_mul_of_nonneg_right Kq hxy)
    rw [mul_comm τ q, mul_assoc] at h1
    exact le_of_mul_le_mul_left h1 i1
  have hρ : ∀ {p r q : ℝ}, 0 < q → |p - r * q| ≤ E * (r * q) → |p / q - r| ≤ E * r := fun {p r q} hq h => by
    rw [div_sub' hq.ne', abs_div, abs_of_pos hq, div_le_iff₀ hq, mul_comm q r]
    linarith
  obtain ⟨dx, dy, hx⟩ := lobatto_system rh rh' rl hE0 hE hu hu1 hτ0 hτ (hρ i1 i2) (hρ j1 j2) f1 f2 x1 x2 res1 res2
  obtain ⟨hy0, hs, hs1⟩ := sqrt_abs_err (R := R) y0h.1 y0h.2 dy (by norm_num; linarith)
  exact ⟨x, y, hsol, dx, hx, hy0, hs, hs1⟩

end QMat
