import Verif.Lemmas.SDCOrder
import Verif.Props.Nilpotent
import Verif.Props.SDC

/-!
# Non-stiff and stiff limits of SDC sweeps
-/

namespace QMat

open Matrix Spec

variable {M : ℕ}

theorem cmat_mul (A B : Matrix (Fin M) (Fin M) ℝ) : cmat (A * B) = cmat A * cmat B := by
  ext i j
  simp [Matrix.mul_apply]

theorem cmat_sub (A B : Matrix (Fin M) (Fin M) ℝ) : cmat (A - B) = cmat A - cmat B := by
  ext i j
  simp

theorem cmat_mulVec_eq_zero {A : Matrix (Fin M) (Fin M) ℝ} (h : A = 0) (v : Fin M → ℂ) :
    cmat A *ᵥ v = 0 := by
  subst h
  have e : cmat (0 : Matrix (Fin M) (Fin M) ℝ) = 0 := by ext i j; simp
  rw [e, Matrix.zero_mulVec]

/-! ## Small `z` -/

/-- Product of the first `k` matrices `Q - QΔ`. -/
def sweepProd (Q : Matrix (Fin M) (Fin M) ℝ) (f : ℕ → Matrix (Fin M) (Fin M) ℝ) :
    ℕ → Matrix (Fin M) (Fin M) ℝ
  | 0 => 1
  | k + 1 => (Q - f k) * sweepProd Q f k

theorem nonstiff_expansion (Q : Matrix (Fin M) (Fin M) ℝ) (f : ℕ → Matrix (Fin M) (Fin M) ℝ) (K : ℕ) :
    ∃ C δ : ℝ, 0 ≤ C ∧ 0 < δ ∧ ∀ z : ℂ, ‖z‖ ≤ δ → ∀ e : ℕ → Fin M → ℂ,
      (∀ k < K, (1 - z • cmat (f k)) *ᵥ e (k + 1) = (z • cmat (Q - f k)) *ᵥ e k) →
      ‖e K‖ ≤ C * ‖z‖ ^ K * ‖e 0‖ ∧
      ‖e K - z ^ K • (cmat (sweepProd Q f K) *ᵥ e 0)‖ ≤ C * ‖z‖ ^ (K + 1) * ‖e 0‖ := by
  induction K with
  | zero =>
    refine ⟨1, 1, zero_le_one, one_pos, fun z _ e _ => ?_⟩
    have e1 : cmat (1 : Matrix (Fin M) (Fin M) ℝ) = 1 := by ext i j; by_cases h : i = j <;> simp [h, Matrix.one_apply]
    simp only [sweepProd, e1, pow_zero, one_smul, Matrix.one_mulVec, sub_self, norm_zero]
    exact ⟨by simp, by positivity⟩
  | succ K ih =>
    obtain ⟨C, δ, hC, hδ, h⟩ := ih
    set a := rowBound (f K) with ha
    set d := rowBound (Q - f K) with hd
    have ha0 : 0 ≤ a := zero_le_one.trans (rowBound_pos _)
    have hd0 : 0 ≤ d := zero_le_one.trans (rowBound_pos _)
    refine ⟨2 * d * C + d * C + 2 * a * d * C, min δ (1 / (2 * (a + 1))), by positivity, by positivity,
      fun z hz e he => ?_⟩
    obtain ⟨h1, h2⟩ := h z (hz.trans (min_le_left _ _)) e fun k hk => he k (by omega)
    have hza : ‖z‖ * a ≤ 1 / 2 := by
      have h3 := hz.trans (min_le_right _ _)
      calc ‖z‖ * a ≤ 1 / (2 * (a + 1)) * a := mul_le_mul_of_nonneg_right h3 ha0
        _ ≤ 1 / 2 := by
          rw [div_mul_eq_mul_div, one_mul, div_le_div_iff₀ (by positivity) (by norm_num)]
          linarith
    have hs := he K (by omega)
    have hz0 := norm_nonneg z
    have hq : ‖(z • cmat (Q - f K)) *ᵥ e K‖ ≤ ‖z‖ * (d * (C * ‖z‖ ^ K * ‖e 0‖)) := by
      rw [Matrix.smul_mulVec, norm_smul]
      exact mul_le_mul_of_nonneg_left ((norm_mulVec_le _ _).trans
        (mul_le_mul_of_nonneg_left h1 hd0)) hz0
    have hn : ‖e (K + 1)‖ ≤ 2 * (‖z‖ * (d * (C * ‖z‖ ^ K * ‖e 0‖))) := by
      have h3 := norm_le_of_small (f K) z hza (e (K + 1))
      rw [hs] at h3
      linarith
    constructor
    · refine hn.trans ?_
      have e2 : 2 * (‖z‖ * (d * (C * ‖z‖ ^ K * ‖e 0‖))) = 2 * d * C * (‖z‖ ^ (K + 1) * ‖e 0‖) := by ring
      have h4 : 0 ≤ (d * C + 2 * a * d * C) * (‖z‖ ^ (K + 1) * ‖e 0‖) := by positivity
      rw [e2]
      linarith
    · -- `e' - z (Q - QΔ) e = z QΔ e'`
      have h3 : e (K + 1) = z • (cmat (f K) *ᵥ e (K + 1)) + z • (cmat (Q - f K) *ᵥ e K) := by
        rw [Matrix.sub_mulVec, Matrix.one_mulVec, Matrix.smul_mulVec, Matrix.smul_mulVec] at hs
        rw [← hs]
        abel
      have h4 : e (K + 1) - z ^ (K + 1) • (cmat (sweepProd Q f (K + 1)) *ᵥ e 0) =
          z • (cmat (f K) *ᵥ e (K + 1)) +
            z • (cmat (Q - f K) *ᵥ (e K - z ^ K • (cmat (sweepProd Q f K) *ᵥ e 0))) := by
        conv_lhs => rw [h3]
        rw [sweepProd, cmat_mul, ← Matrix.mulVec_mulVec, Matrix.mulVec_sub, Matrix.mulVec_smul, smul_sub,
          smul_smul, pow_succ']
        abel
      rw [h4]
      have h5 : ‖z • (cmat (f K) *ᵥ e (K + 1))‖ ≤
          ‖z‖ * (a * (2 * (‖z‖ * (d * (C * ‖z‖ ^ K * ‖e 0‖))))) := by
        rw [norm_smul]
        exact mul_le_mul_of_nonneg_left ((norm_mulVec_le _ _).trans
          (mul_le_mul_of_nonneg_left hn ha0)) hz0
      have h6 : ‖z • (cmat (Q - f K) *ᵥ (e K - z ^ K • (cmat (sweepProd Q f K) *ᵥ e 0)))‖ ≤
          ‖z‖ * (d * (C * ‖z‖ ^ (K + 1) * ‖e 0‖)) := by
        rw [norm_smul]
        exact mul_le_mul_of_nonneg_left ((norm_mulVec_le _ _).trans
          (mul_le_mul_of_nonneg_left h2 hd0)) hz0
      refine (norm_add_le _ _).trans ((add_le_add h5 h6).trans ?_)
      have e2 : ‖z‖ * (a * (2 * (‖z‖ * (d * (C * ‖z‖ ^ K * ‖e 0‖))))) + ‖z‖ * (d * (C * ‖z‖ ^ (K + 1) * ‖e 0‖)) =
          (d * C + 2 * a * d * C) * (‖z‖ ^ (K + 1 + 1) * ‖e 0‖) := by ring
      have h7 : 0 ≤ 2 * d * C * (‖z‖ ^ (K + 1 + 1) * ‖e 0‖) := by positivity
      rw [e2]
      linarith

/-! ## Large `z` -/

/-- The projection on the nodes that are not zero. -/
noncomputable def nodeProj (x : Fin M → ℝ) : Matrix (Fin M) (Fin M) ℝ :=
  Matrix.diagonal fun i => if x i = 0 then 0 else 1

/-- `A` is invertible on the nodes that are not zero, with zero rows at zero nodes. -/
def StiffRegular (x : Fin M → ℝ) (A : Matrix (Fin M) (Fin M) ℝ) : Prop :=
  nodeProj x * A = A ∧ ∃ B, A * B = nodeProj x ∧ B * A = nodeProj x ∧ nodeProj x * B = B

theorem nodeProj_mulVec_eq {x : Fin M → ℝ} (v : Fin M → ℂ) (h : ∀ i, x i = 0 → v i = 0) :
    cmat (nodeProj x) *ᵥ v = v := by
  have e : cmat (nodeProj x) = Matrix.diagonal fun i => if x i = 0 then 0 else 1 := by
    ext i j
    by_cases hij : i = j
    · subst hij
      by_cases hx : x i = 0 <;> simp [nodeProj, hx]
    · simp [nodeProj, hij]
  funext i
  rw [e, Matrix.mulVec_diagonal]
  by_cases hx : x i = 0 <;> simp [hx, h i]

theorem nodeProj_mulVec_zero {x : Fin M → ℝ} (v : Fin M → ℝ) (i : Fin M) (h : x i = 0) :
    (nodeProj x *ᵥ v) i = 0 := by
  rw [nodeProj, Matrix.mulVec_diagonal, if_pos h, zero_mul]

theorem nodeProj_sq (x : Fin M → ℝ) : nodeProj x * nodeProj x = nodeProj x := by
  rw [nodeProj, Matrix.diagonal_mul_diagonal]
  congr 1
  funext i
  split_ifs <;> simp

/-- If the real stiff limit annihilates every error after `K` sweeps, the sweeps reduce the error by a
factor `O(1/|z|)`. -/
theorem stiff_limit {x : Fin M → ℝ} {Q : Matrix (Fin M) (Fin M) ℝ} (hQ : nodeProj x * Q = Q)
    {f : ℕ → Matrix (Fin M) (Fin M) ℝ} (hf : ∀ k, StiffRegular x (f k)) (K : ℕ)
    (hst : ∀ e, StiffErrors x Q f e → e K = 0) :
    ∃ C R : ℝ, 0 < R ∧ ∀ z : ℂ, R ≤ ‖z‖ → (∀ k < K, (1 - z • cmat (f k)).det ≠ 0) ∧
      ∀ e : ℕ → Fin M → ℂ, (∀ i, x i = 0 → e 0 i = 0) →
        (∀ k < K, (1 - z • cmat (f k)) *ᵥ e (k + 1) = (z • cmat (Q - f k)) *ᵥ e k) →
        ‖e K‖ ≤ C / ‖z‖ * ‖e 0‖ := by
  choose hP B hAB hBA hPB using hf
  let L : ℕ → Matrix (Fin M) (Fin M) ℝ := fun k =>
    Nat.rec (nodeProj x) (fun k Lk => B k * (f k - Q) * Lk) k
  have hLs : ∀ k, L (k + 1) = B k * (f k - Q) * L k := fun k => rfl
  have hPL : ∀ k, nodeProj x * L k = L k := by
    intro k
    cases k with
    | zero => exact nodeProj_sq x
    | succ k => rw [hLs, ← Matrix.mul_assoc, ← Matrix.mul_assoc, hPB]
  have hL0 : L K = 0 := by
    have key : ∀ v : Fin M → ℝ, L K *ᵥ v = 0 := by
      intro v
      refine hst (fun k => L k *ᵥ v) ⟨fun k i hi => ?_, fun k => ?_⟩
      · change (L k *ᵥ v) i = 0
        rw [← hPL, ← Matrix.mulVec_mulVec]
        exact nodeProj_mulVec_zero _ i hi
      · change f k *ᵥ (L (k + 1) *ᵥ v) = f k *ᵥ (L k *ᵥ v) - Q *ᵥ (L k *ᵥ v)
        rw [← Matrix.sub_mulVec, Matrix.mulVec_mulVec, Matrix.mulVec_mulVec, hLs, ← Matrix.mul_assoc,
          ← Matrix.mul_assoc, hAB, Matrix.mul_sub, hP, hQ]
    ext i j
    have := congrFun (key (Pi.single j 1)) i
    rw [Matrix.mulVec_single_one] at this
    exact this
  have main : ∀ k, ∃ C R : ℝ, 0 ≤ C ∧ 0 < R ∧ ∀ z : ℂ, R ≤ ‖z‖ →
      (∀ i < k, (1 - z • cmat (f i)).det ≠ 0) ∧
      ∀ e : ℕ → Fin M → ℂ, (∀ i, x i = 0 → e 0 i = 0) →
        (∀ i < k, (1 - z • cmat (f i)) *ᵥ e (i + 1) = (z • cmat (Q - f i)) *ᵥ e i) →
        ‖e k‖ ≤ C * ‖e 0‖ ∧ ‖e k - cmat (L k) *ᵥ e 0‖ ≤ C / ‖z‖ * ‖e 0‖ := by
    intro k
    induction k with
    | zero =>
      refine ⟨1, 1, zero_le_one, one_pos, fun z hz => ⟨by simp, fun e he _ => ⟨by simp, ?_⟩⟩⟩
      rw [show L 0 = nodeProj x from rfl, nodeProj_mulVec_eq _ he, sub_self, norm_zero]
      positivity
    | succ k ih =>
      obtain ⟨C, R, hC, hR, h⟩ := ih
      set b := rowBound (B k) with hb
      set d := rowBound (B k * (f k - Q)) with hd
      have hb0 : 0 ≤ b := zero_le_one.trans (rowBound_pos _)
      have hd0 : 0 ≤ d := zero_le_one.trans (rowBound_pos _)
      refine ⟨2 * d * C + 2 * b * d * C + d * C, max R (2 * (b + 1)), by positivity, by positivity,
        fun z hz => ?_⟩
      obtain ⟨hdet, h⟩ := h z ((le_max_left _ _).trans hz)
      have hz2 := (le_max_right _ _).trans hz
      have hzp : 0 < ‖z‖ := lt_of_lt_of_le (by positivity) hz2
      have hz0 : z ≠ 0 := norm_pos_iff.mp hzp
      have hzb : b ≤ ‖z‖ / 2 := by linarith
      -- a vector `v` with `(1 - z A) v = y`, `y = 0` at zero nodes
      have inv : ∀ v y : Fin M → ℂ, (1 - z • cmat (f k)) *ᵥ v = y → cmat (nodeProj x) *ᵥ y = y →
          v = z⁻¹ • (cmat (B k) *ᵥ v) - z⁻¹ • (cmat (B k) *ᵥ y) := by
        intro v y hv hy
        rw [Matrix.sub_mulVec, Matrix.one_mulVec, Matrix.smul_mulVec] at hv
        have hv2 : v = y + z • (cmat (f k) *ᵥ v) := by rw [← hv]; abel
        have hPv : cmat (nodeProj x) *ᵥ v = v := by
          conv_lhs => rw [hv2]
          rw [Matrix.mulVec_add, hy, Matrix.mulVec_smul, Matrix.mulVec_mulVec, ← cmat_mul, hP]
          exact hv2.symm
        have h3 := congrArg (fun t => z⁻¹ • (cmat (B k) *ᵥ t)) hv
        simp only [Matrix.mulVec_sub, Matrix.mulVec_smul, Matrix.mulVec_mulVec, ← cmat_mul, hBA, hPv,
          smul_sub, smul_smul, inv_mul_cancel₀ hz0, one_smul] at h3
        rw [← h3]
        abel
      have hBn : ∀ v : Fin M → ℂ, ‖z⁻¹ • (cmat (B k) *ᵥ v)‖ ≤ b / ‖z‖ * ‖v‖ := fun v => by
        rw [norm_smul, norm_inv]
        calc ‖z‖⁻¹ * ‖cmat (B k) *ᵥ v‖ ≤ ‖z‖⁻¹ * (b * ‖v‖) :=
              mul_le_mul_of_nonneg_left (norm_mulVec_le _ _) (by positivity)
          _ = _ := by ring
      have hbz : b / ‖z‖ ≤ 1 / 2 := by
        rw [div_le_div_iff₀ hzp (by norm_num)]
        linarith
      refine ⟨fun i hi => ?_, fun e he0 he => ?_⟩
      · rcases Nat.lt_succ_iff_lt_or_eq.mp hi with hi | rfl
        · exact hdet i hi
        · intro h0
          obtain ⟨v, hv0, hv⟩ := Matrix.exists_mulVec_eq_zero_iff.mpr h0
          apply hv0
          have h3 := inv v 0 hv (by simp)
          rw [Matrix.mulVec_zero, smul_zero, sub_zero] at h3
          have h4 := hBn v
          rw [← h3] at h4
          have h5 : b / ‖z‖ * ‖v‖ ≤ 1 / 2 * ‖v‖ := mul_le_mul_of_nonneg_right hbz (norm_nonneg _)
          exact norm_le_zero_iff.mp (by linarith)
      · obtain ⟨h1, h2⟩ := h e he0 fun i hi => he i (by omega)
        have hy : cmat (nodeProj x) *ᵥ ((z • cmat (Q - f k)) *ᵥ e k) = (z • cmat (Q - f k)) *ᵥ e k := by
          rw [Matrix.smul_mulVec, Matrix.mulVec_smul, Matrix.mulVec_mulVec, ← cmat_mul, Matrix.mul_sub,
            hQ, hP]
        have h3 := inv _ _ (he k (by omega)) hy
        have h4 : z⁻¹ • (cmat (B k) *ᵥ ((z • cmat (Q - f k)) *ᵥ e k)) =
            - (cmat (B k * (f k - Q)) *ᵥ e k) := by
          rw [Matrix.smul_mulVec, Matrix.mulVec_smul, Matrix.mulVec_mulVec, ← cmat_mul, smul_smul,
            inv_mul_cancel₀ hz0, one_smul, ← Matrix.neg_mulVec]
          congr 1
          ext i j
          simp [Matrix.mul_sub]
        rw [h4, sub_neg_eq_add] at h3
        have h5 : ‖cmat (B k * (f k - Q)) *ᵥ e k‖ ≤ d * (C * ‖e 0‖) :=
          (norm_mulVec_le _ _).trans (mul_le_mul_of_nonneg_left h1 hd0)
        have h6 : ‖e (k + 1)‖ ≤ 2 * (d * (C * ‖e 0‖)) := by
          have h7 : ‖e (k + 1)‖ ≤ b / ‖z‖ * ‖e (k + 1)‖ + d * (C * ‖e 0‖) := by
            conv_lhs => rw [h3]
            exact (norm_add_le _ _).trans (add_le_add (hBn _) h5)
          have h8 : b / ‖z‖ * ‖e (k + 1)‖ ≤ 1 / 2 * ‖e (k + 1)‖ :=
            mul_le_mul_of_nonneg_right hbz (norm_nonneg _)
          linarith
        constructor
        · refine h6.trans ?_
          have : 0 ≤ (2 * b * d * C + d * C) * ‖e 0‖ := by positivity
          nlinarith
        · have h9 : e (k + 1) - cmat (L (k + 1)) *ᵥ e 0 = z⁻¹ • (cmat (B k) *ᵥ e (k + 1)) +
              cmat (B k * (f k - Q)) *ᵥ (e k - cmat (L k) *ᵥ e 0) := by
            conv_lhs => rw [h3]
            rw [hLs, cmat_mul (B k * (f k - Q)), ← Matrix.mulVec_mulVec, Matrix.mulVec_sub]
            abel
          rw [h9]
          have h10 : ‖cmat (B k * (f k - Q)) *ᵥ (e k - cmat (L k) *ᵥ e 0)‖ ≤ d * (C / ‖z‖ * ‖e 0‖) :=
            (norm_mulVec_le _ _).trans (mul_le_mul_of_nonneg_left h2 hd0)
          have h11 : ‖z⁻¹ • (cmat (B k) *ᵥ e (k + 1))‖ ≤ b / ‖z‖ * (2 * (d * (C * ‖e 0‖))) :=
            (hBn _).trans (mul_le_mul_of_nonneg_left h6 (by positivity))
          refine (norm_add_le _ _).trans ((add_le_add h11 h10).trans ?_)
          have e2 : b / ‖z‖ * (2 * (d * (C * ‖e 0‖))) + d * (C / ‖z‖ * ‖e 0‖) =
              (2 * b * d * C + d * C) / ‖z‖ * ‖e 0‖ := by ring
          have e3 : (2 * d * C + 2 * b * d * C + d * C) / ‖z‖ * ‖e 0‖ =
              (2 * b * d * C + d * C) / ‖z‖ * ‖e 0‖ + 2 * d * C / ‖z‖ * ‖e 0‖ := by ring
          have : 0 ≤ 2 * d * C / ‖z‖ * ‖e 0‖ := by positivity
          rw [e2, e3]
          linarith
  obtain ⟨C, R, -, hR, h⟩ := main K
  refine ⟨C, R, hR, fun z hz => ⟨(h z hz).1, fun e he0 he => ?_⟩⟩
  have := ((h z hz).2 e he0 he).2
  rwa [cmat_mulVec_eq_zero hL0, sub_zero] at this

end QMat
