import Verif.Lemmas.Dahlquist

/-!
# C30, C31: `solveDahlquist` and the order of a Runge-Kutta tableau
-/

namespace QMat

open Matrix Spec

/-- C30: for a positive number of steps and an invertible stage matrix, `solveDahlquist` returns the
`nSteps+1` powers of the stability function, starting with `u0`. -/
theorem C30_solveDahlquist {M : ℕ} (g : QGenerator M) (lam u0 : ℂ) (tEnd : ℝ) (n : ℕ) (hn : 0 < n)
    (hdet : (1 - (lam * (tEnd / n : ℝ)) • g.Q.map Complex.ofReal).det ≠ 0) :
    g.solveDahlquist lam u0 tEnd n = .ok ((List.range (n + 1)).map fun k =>
      stabilityFunction g.Q g.weights (lam * (tEnd / n : ℝ)) ^ k * u0) := by
  have h1 : ¬ ((n:ℤ) + 1 < 0) := by omega
  have h2 : ¬ ((n:ℤ) + 1 = 0) := by omega
  have h3 : ¬ ((n:ℤ) = 0) := by omega
  simp only [QGenerator.solveDahlquist, Bool.false_eq_true, if_false, if_neg h1, if_neg h2, if_neg h3,
    bind, Except.bind, pure, Except.pure, Int.cast_natCast, Int.toNat_natCast]
  rw [dahlquistSteps_eq g.Q g.weights _ hdet]
  simp only [List.range_succ_eq_map, List.map_cons, List.map_map]
  congr 2
  simp

/-- C30, embedded weights: same with `weightsEmbedded` in place of `weights`, which must have one entry
per node. -/
theorem C30_solveDahlquist_embedded {M : ℕ} (g : QGenerator M) (b2 : Fin M → ℝ)
    (hb2 : g.weightsEmbedded = .ok ⟨M, b2⟩) (lam u0 : ℂ) (tEnd : ℝ) (n : ℕ) (hn : 0 < n)
    (hdet : (1 - (lam * (tEnd / n : ℝ)) • g.Q.map Complex.ofReal).det ≠ 0) :
    g.solveDahlquist lam u0 tEnd n true = .ok ((List.range (n + 1)).map fun k =>
      stabilityFunction g.Q b2 (lam * (tEnd / n : ℝ)) ^ k * u0) := by
  have h1 : ¬ ((n:ℤ) + 1 < 0) := by omega
  have h2 : ¬ ((n:ℤ) + 1 = 0) := by omega
  have h3 : ¬ ((n:ℤ) = 0) := by omega
  simp only [QGenerator.solveDahlquist, if_true, hb2, if_neg h1, if_neg h2, if_neg h3,
    bind, Except.bind, pure, Except.pure, Int.cast_natCast, Int.toNat_natCast]
  rw [dahlquistSteps_eq g.Q b2 _ hdet]
  simp only [List.range_succ_eq_map, List.map_cons, List.map_map]
  congr 2
  simp

/-- C30, failures: a singular stage matrix is a `LinAlgError`; no step, or a negative number of steps,
is an error too; embedded weights that do not exist or have another size are an error. -/
theorem C30_solveDahlquist_errors {M : ℕ} (g : QGenerator M) (lam u0 : ℂ) (tEnd : ℝ) :
    (∀ n : ℕ, 0 < n → (1 - (lam * (tEnd / n : ℝ)) • g.Q.map Complex.ofReal).det = 0 →
      g.solveDahlquist lam u0 tEnd n = .error .linAlgError) ∧
    (∀ n : ℤ, n ≤ 0 → ∃ e, g.solveDahlquist lam u0 tEnd n = .error e) ∧
    (∀ e, g.weightsEmbedded = .error e → ∀ n, g.solveDahlquist lam u0 tEnd n true = .error e) ∧
    (∀ b2, g.weightsEmbedded = .ok b2 → b2.1 ≠ M → ∀ n,
      ∃ e, g.solveDahlquist lam u0 tEnd n true = .error e) := by
  refine ⟨fun n hn h => ?_, fun n hn => ?_, fun e he n => ?_, fun b2 hb2 hs n => ?_⟩
  · have h1 : ¬ ((n:ℤ) + 1 < 0) := by omega
    have h2 : ¬ ((n:ℤ) + 1 = 0) := by omega
    have h3 : ¬ ((n:ℤ) = 0) := by omega
    simp only [QGenerator.solveDahlquist, Bool.false_eq_true, if_false, if_neg h1, if_neg h2, if_neg h3,
      bind, Except.bind, pure, Except.pure, Int.cast_natCast, Int.toNat_natCast]
    rw [dahlquistSteps_singular _ _ _ h n hn]
  · simp only [QGenerator.solveDahlquist, Bool.false_eq_true, if_false, bind, Except.bind, pure,
      Except.pure]
    by_cases h1 : n + 1 < 0
    · exact ⟨_, by rw [if_pos h1]; rfl⟩
    · by_cases h2 : n + 1 = 0
      · exact ⟨_, by rw [if_neg h1, if_pos h2]; rfl⟩
      · have h3 : n = 0 := by omega
        exact ⟨_, by rw [if_neg h1, if_neg h2, if_pos h3]; rfl⟩
  · simp [QGenerator.solveDahlquist, he, bind, Except.bind]
  · simp only [QGenerator.solveDahlquist, if_true, hb2, bind, Except.bind, pure, Except.pure]
    by_cases h1 : n + 1 < 0
    · exact ⟨_, by rw [if_pos h1]; rfl⟩
    · by_cases h2 : n + 1 = 0
      · exact ⟨_, by rw [if_neg h1, if_pos h2]; rfl⟩
      · by_cases h3 : n = 0
        · exact ⟨_, by rw [if_neg h1, if_neg h2, if_pos h3]; rfl⟩
        · rw [if_neg h1, if_neg h2, if_neg h3]
          by_cases hd : (1 - (lam * ((tEnd / n : ℝ) : ℂ)) • g.Q.map Complex.ofReal).det = 0
          · rw [dahlquistSteps_singular _ _ _ hd _ (by omega)]
            exact ⟨_, rfl⟩
          · rw [dahlquistSteps_size _ _ _ hd hs _ (by omega)]
            exact ⟨_, rfl⟩

/-- A generator with one implicit Euler stage. -/
noncomputable def backwardEulerGen : QGenerator 1 where
  nodes := fun _ => 1
  weights := fun _ => 1
  Q := 1
  S := .ok 1
  hCoeffs := .ok fun _ => 1
  weightsEmbedded := .error .notImplementedError

/-- Backward Euler on `u' = -u`: three values, the powers of `1/(1+dt)`. -/
example : backwardEulerGen.solveDahlquist (-1) 1 2 2 = .ok [1, 1 / 2, 1 / 4] := by
  have hd : (1 - ((-1 : ℂ) * ((2 / (2:ℕ) : ℝ) : ℂ)) • backwardEulerGen.Q.map Complex.ofReal) =
      Matrix.of fun _ _ => 2 := by
    ext i j
    fin_cases i; fin_cases j
    simp [backwardEulerGen]
    norm_num
  have := C30_solveDahlquist backwardEulerGen (-1) 1 2 2 (by norm_num) (by rw [hd]; simp)
  have hi : (Matrix.of fun _ _ => 2 : Matrix (Fin 1) (Fin 1) ℂ)⁻¹ = Matrix.of fun _ _ => 1 / 2 := by
    refine Matrix.inv_eq_right_inv ?_
    ext i j
    fin_cases i; fin_cases j
    simp [Matrix.mul_apply]
  have hR : stabilityFunction backwardEulerGen.Q backwardEulerGen.weights
      (-1 * ((2 / (2:ℕ) : ℝ) : ℂ)) = 1 / 2 := by
    rw [stabilityFunction, hd, hi]
    simp [Matrix.mulVec, dotProduct, backwardEulerGen]
    norm_num
  rw [hR] at this
  have e : (((2:ℕ):ℤ)) = (2:ℤ) := rfl
  rw [e] at this
  rw [this]
  simp [List.range_succ]
  norm_num

/-- The error of an array with an entry for each time. -/
theorem errorInf_ok {u : List ℂ} {n : ℕ} (h : u.length = n + 1) (f : ℕ → ℂ) :
    errorInf u n f = .ok (npNormInf (u.mapIdx fun i v => v - f i)) := by
  have h1 : ¬ ((n:ℤ) + 1 < 0) := by omega
  have h2 : u.length = ((n:ℤ) + 1).toNat := by omega
  have h3 : ¬ (u.mapIdx fun i v => v - f i).isEmpty := by
    rw [List.isEmpty_iff]
    intro h0
    have := congrArg List.length h0
    simp [h] at this
  simp only [errorInf, bind, Except.bind, pure, Except.pure, if_neg h1, if_pos h2, if_neg h3]

/-- `errorDahlquist` is the largest distance to the exact solution at the time steps, for whatever
`solveDahlquist` returned. -/
theorem errorDahlquist_of_solve {M : ℕ} (g : QGenerator M) (lam u0 : ℂ) (tEnd : ℝ) (n : ℕ)
    (emb : Bool) (R : ℂ)
    (h : g.solveDahlquist lam u0 tEnd n emb = .ok ((List.range (n + 1)).map fun k => R ^ k * u0)) :
    ∃ e, g.errorDahlquist lam u0 tEnd n none emb = .ok e ∧
      (∀ k ≤ n, ‖R ^ k * u0 - u0 * Complex.exp (lam * (k * (tEnd / n) : ℝ))‖ ≤ e) ∧
      ∀ K, 0 ≤ K → (∀ k ≤ n, ‖R ^ k * u0 - u0 * Complex.exp (lam * (k * (tEnd / n) : ℝ))‖ ≤ K) →
        e ≤ K := by
  have hlen : ((List.range (n + 1)).map fun k => R ^ k * u0).length = ((n:ℤ) + 1).toNat := by
    simp
  refine ⟨npNormInf (((List.range (n + 1)).map fun k => R ^ k * u0).mapIdx fun i u =>
      u - u0 * Complex.exp (lam * (i * (tEnd / (n:ℤ)) : ℝ))), ?_, ?_, ?_⟩
  · simp only [QGenerator.errorDahlquist, h, bind, Except.bind]
    exact errorInf_ok (by simp) _
  · intro k hk
    refine norm_le_npNormInf (List.mem_mapIdx.mpr ⟨k, by simp; omega, ?_⟩)
    simp
  · intro K hK hb
    refine npNormInf_le hK fun z hz => ?_
    obtain ⟨i, hi, rfl⟩ := List.mem_mapIdx.mp hz
    have hi' : i ≤ n := by simp at hi; omega
    have := hb i hi'
    simpa using this

/-- From a local error `O(z^{p+1})` of the step to a global error `O(nSteps^{-p})`. -/
theorem global_order {M : ℕ} (g : QGenerator M) (b : Fin M → ℝ) (emb : Bool) (p : ℕ) (lam u0 : ℂ)
    (tEnd : ℝ)
    (hsol : ∀ n : ℕ, 0 < n → (1 - (lam * (tEnd / n : ℝ)) • g.Q.map Complex.ofReal).det ≠ 0 →
      g.solveDahlquist lam u0 tEnd n emb = .ok ((List.range (n + 1)).map fun k =>
        stabilityFunction g.Q b (lam * (tEnd / n : ℝ)) ^ k * u0))
    (h : LinearOrder g.Q b p) :
    ∃ (K : ℝ) (N : ℕ), ∀ n : ℕ, N ≤ n → ∃ e, g.errorDahlquist lam u0 tEnd n none emb = .ok e ∧
      e ≤ K / n ^ p := by
  obtain ⟨C, δ, hC, hδ, hδ1, hloc⟩ := local_error g.Q b p h
  set W := ‖lam‖ * |tEnd| with hW
  have hW0 : 0 ≤ W := by positivity
  obtain ⟨N, hN⟩ := exists_nat_gt (W / δ)
  refine ⟨‖u0‖ * (C * W ^ (p + 1) * Real.exp ((1 + C) * W)), N + 1, fun n hn => ?_⟩
  have hn0 : (0:ℝ) < n := by exact_mod_cast (by omega : 0 < n)
  set z : ℂ := lam * (tEnd / n : ℝ) with hz
  have hzn : ‖z‖ = W / n := by
    rw [hz, norm_mul, Complex.norm_real, Real.norm_eq_abs, abs_div, abs_of_pos hn0, hW]; ring
  have hzδ : ‖z‖ ≤ δ := by
    rw [hzn, div_le_iff₀ hn0]
    rw [div_lt_iff₀ hδ] at hN
    have : (N:ℝ) ≤ n := by exact_mod_cast (by omega : N ≤ n)
    nlinarith
  obtain ⟨hdet, herr⟩ := hloc z hzδ
  obtain ⟨e, he, -, hle⟩ := errorDahlquist_of_solve g lam u0 tEnd n emb _ (hsol n (by omega) hdet)
  refine ⟨e, he, hle _ (by positivity) fun k hk => ?_⟩
  have hpe := power_error hC (hzδ.trans hδ1) herr k
  have e1 : lam * ((k * (tEnd / n) : ℝ) : ℂ) = k * z := by rw [hz]; push_cast; ring
  rw [e1, mul_comm (_ ^ k) u0, ← mul_sub, norm_mul]
  rw [mul_div_assoc]
  refine mul_le_mul_of_nonneg_left (hpe.trans ?_) (norm_nonneg _)
  have hk' : (k:ℝ) ≤ n := by exact_mod_cast hk
  have h1 : (k:ℝ) * ‖z‖ ≤ W := by
    rw [hzn]
    calc (k:ℝ) * (W / n) ≤ n * (W / n) := mul_le_mul_of_nonneg_right hk' (by positivity)
      _ = W := by field_simp
  calc (k:ℝ) * (C * ‖z‖ ^ (p + 1)) * Real.exp ((1 + C) * (k * ‖z‖))
      ≤ n * (C * ‖z‖ ^ (p + 1)) * Real.exp ((1 + C) * W) := by
        refine mul_le_mul (mul_le_mul_of_nonneg_right hk' (by positivity)) ?_ (Real.exp_pos _).le
          (by positivity)
        exact Real.exp_le_exp.mpr (mul_le_mul_of_nonneg_left h1 (by linarith))
    _ = C * W ^ (p + 1) * Real.exp ((1 + C) * W) / n ^ p := by
        rw [hzn, div_pow, pow_succ (n:ℝ) p]
        field_simp

/-- From a local error `O(z^{p+1}) + p tol z` of the step to the global error. -/
theorem global_order_tol {M : ℕ} (g : QGenerator M) (b : Fin M → ℝ) (emb : Bool) (p : ℕ) (hp : 0 < p)
    (tol : ℝ) (htol : p * tol ≤ 1) (lam u0 : ℂ) (tEnd : ℝ)
    (hsol : ∀ n : ℕ, 0 < n → (1 - (lam * (tEnd / n : ℝ)) • g.Q.map Complex.ofReal).det ≠ 0 →
      g.solveDahlquist lam u0 tEnd n emb = .ok ((List.range (n + 1)).map fun k =>
        stabilityFunction g.Q b (lam * (tEnd / n : ℝ)) ^ k * u0))
    (h : ∀ k, k < p → |b ⬝ᵥ ((g.Q ^ k) *ᵥ fun _ => 1) - 1 / (k + 1).factorial| ≤ tol) :
    ∃ (K : ℝ) (N : ℕ), ∀ n : ℕ, N ≤ n → ∃ e, g.errorDahlquist lam u0 tEnd n none emb = .ok e ∧
      e ≤ K / n ^ p + p * tol * (‖u0‖ * (‖lam‖ * |tEnd|) * Real.exp (3 * (‖lam‖ * |tEnd|))) := by
  obtain ⟨C, δ, hC, hδ, hδ1, hloc⟩ := local_error_tol g.Q b p tol h
  have htol0 : 0 ≤ tol := (abs_nonneg _).trans (h 0 hp)
  set W := ‖lam‖ * |tEnd| with hW
  have hW0 : 0 ≤ W := by positivity
  set δ' := min δ (1 / (C + 1)) with hδ'
  have hδ'0 : 0 < δ' := lt_min hδ (by positivity)
  obtain ⟨N, hN⟩ := exists_nat_gt (W / δ')
  refine ⟨‖u0‖ * (C * W ^ (p + 1) * Real.exp (3 * W)), N + 1, fun n hn => ?_⟩
  have hn0 : (0:ℝ) < n := by exact_mod_cast (by omega : 0 < n)
  set z : ℂ := lam * (tEnd / n : ℝ) with hz
  have hzn : ‖z‖ = W / n := by
    rw [hz, norm_mul, Complex.norm_real, Real.norm_eq_abs, abs_div, abs_of_pos hn0, hW]; ring
  have hzδ' : ‖z‖ ≤ δ' := by
    rw [hzn, div_le_iff₀ hn0]
    rw [div_lt_iff₀ hδ'0] at hN
    have : (N:ℝ) ≤ n := by exact_mod_cast (by omega : N ≤ n)
    nlinarith
  have hzδ : ‖z‖ ≤ δ := hzδ'.trans (min_le_left _ _)
  have hz1 : ‖z‖ ≤ 1 := hzδ.trans hδ1
  have hzC : C * ‖z‖ ≤ 1 := by
    have h1 : ‖z‖ ≤ 1 / (C + 1) := hzδ'.trans (min_le_right _ _)
    rw [le_div_iff₀ (by positivity)] at h1
    nlinarith [norm_nonneg z]
  obtain ⟨hdet, herr⟩ := hloc z hzδ
  obtain ⟨e, he, -, hle⟩ := errorDahlquist_of_solve g lam u0 tEnd n emb _ (hsol n (by omega) hdet)
  refine ⟨e, he, hle _ (by positivity) fun k hk => ?_⟩
  have hD0 : 0 ≤ C * ‖z‖ ^ (p + 1) + p * tol * ‖z‖ := by positivity
  have hD : C * ‖z‖ ^ (p + 1) + p * tol * ‖z‖ ≤ 2 * ‖z‖ := by
    have h1 : ‖z‖ ^ p ≤ ‖z‖ := by
      obtain ⟨q, rfl⟩ : ∃ q, p = q + 1 := ⟨p - 1, by omega⟩
      rw [pow_succ]
      exact mul_le_of_le_one_left (norm_nonneg _) (pow_le_one₀ (norm_nonneg _) hz1)
    have h2 : C * ‖z‖ ^ (p + 1) ≤ ‖z‖ := by
      calc C * ‖z‖ ^ (p + 1) = C * ‖z‖ ^ p * ‖z‖ := by ring
        _ ≤ C * ‖z‖ * ‖z‖ := mul_le_mul_of_nonneg_right (mul_le_mul_of_nonneg_left h1 hC)
            (norm_nonneg _)
        _ ≤ 1 * ‖z‖ := mul_le_mul_of_nonneg_right hzC (norm_nonneg _)
        _ = ‖z‖ := one_mul _
    have h3 := mul_le_mul_of_nonneg_right htol (norm_nonneg z)
    linarith
  have hpe := power_error_gen (by norm_num : (0:ℝ) ≤ 2) hD0 hD herr k
  have e1 : lam * ((k * (tEnd / n) : ℝ) : ℂ) = k * z := by rw [hz]; push_cast; ring
  rw [e1, mul_comm (_ ^ k) u0, ← mul_sub, norm_mul]
  have e2 : ‖u0‖ * (C * W ^ (p + 1) * Real.exp (3 * W)) / n ^ p +
      p * tol * (‖u0‖ * W * Real.exp (3 * W)) =
      ‖u0‖ * (n * (C * ‖z‖ ^ (p + 1) + p * tol * ‖z‖) * Real.exp (3 * W)) := by
    rw [hzn, div_pow, pow_succ (n:ℝ) p]
    field_simp
  rw [e2]
  refine mul_le_mul_of_nonneg_left (hpe.trans ?_) (norm_nonneg _)
  have hk' : (k:ℝ) ≤ n := by exact_mod_cast hk
  have h1 : (k:ℝ) * ‖z‖ ≤ W := by
    rw [hzn]
    calc (k:ℝ) * (W / n) ≤ n * (W / n) := mul_le_mul_of_nonneg_right hk' (by positivity)
      _ = W := by field_simp
  refine mul_le_mul (mul_le_mul_of_nonneg_right hk' hD0) ?_ (Real.exp_pos _).le (by positivity)
  exact Real.exp_le_exp.mpr (by linarith)

/-- C31: if `bᵀ A^{k-1} 1 = 1/k!` for `k = 1, ..., p`, then for every `lam`, `u0` and final time
`errorDahlquist` succeeds for all large numbers of steps and its value is `O(nSteps^{-p})`. -/
theorem C31_linear_order {M : ℕ} (g : QGenerator M) (p : ℕ) (h : LinearOrder g.Q g.weights p)
    (lam u0 : ℂ) (tEnd : ℝ) :
    ∃ (K : ℝ) (N : ℕ), ∀ n : ℕ, N ≤ n → ∃ e, g.errorDahlquist lam u0 tEnd n = .ok e ∧
      e ≤ K / n ^ p :=
  global_order g g.weights false p lam u0 tEnd
    (fun n hn hd => C30_solveDahlquist g lam u0 tEnd n hn hd) h

/-- C31 for the embedded weights. -/
theorem C31_linear_order_embedded {M : ℕ} (g : QGenerator M) (b2 : Fin M → ℝ)
    (hb2 : g.weightsEmbedded = .ok ⟨M, b2⟩) (p : ℕ) (h : LinearOrder g.Q b2 p)
    (lam u0 : ℂ) (tEnd : ℝ) :
    ∃ (K : ℝ) (N : ℕ), ∀ n : ℕ, N ≤ n →
      ∃ e, g.errorDahlquist lam u0 tEnd n none true = .ok e ∧ e ≤ K / n ^ p :=
  global_order g b2 true p lam u0 tEnd
    (fun n hn hd => C30_solveDahlquist_embedded g b2 hb2 lam u0 tEnd n hn hd) h

/-- The order is sharp: a lower bound of the error when the condition for `p + 1` fails. -/
theorem global_order_sharp {M : ℕ} (g : QGenerator M) (b : Fin M → ℝ) (emb : Bool) (p : ℕ) (hp : 0 < p)
    (lam u0 : ℂ) (tEnd : ℝ) (hlam : lam ≠ 0) (hu0 : u0 ≠ 0) (htEnd : tEnd ≠ 0)
    (hsol : ∀ n : ℕ, 0 < n → (1 - (lam * (tEnd / n : ℝ)) • g.Q.map Complex.ofReal).det ≠ 0 →
      g.solveDahlquist lam u0 tEnd n emb = .ok ((List.range (n + 1)).map fun k =>
        stabilityFunction g.Q b (lam * (tEnd / n : ℝ)) ^ k * u0))
    (h : LinearOrder g.Q b p)
    (hne : b ⬝ᵥ ((g.Q ^ p) *ᵥ fun _ => 1) ≠ 1 / (p + 1).factorial) :
    ∃ (c : ℝ) (N : ℕ), 0 < c ∧ ∀ n : ℕ, N ≤ n →
      ∃ e, g.errorDahlquist lam u0 tEnd n none emb = .ok e ∧ c / n ^ p ≤ e := by
  obtain ⟨C, δ, hC, hδ, hδ1, hloc⟩ := local_expansion g.Q b (p + 1)
  set m := |linResidual g.Q b p| with hm
  have hm0 : 0 < m := abs_pos.mpr (sub_ne_zero.mpr hne)
  set W := ‖lam‖ * |tEnd| with hW
  have hW0 : 0 < W := mul_pos (norm_pos_iff.mpr hlam) (abs_pos.mpr htEnd)
  have hu : 0 < ‖u0‖ := norm_pos_iff.mpr hu0
  set G := (m + C) * W * Real.exp 1 with hG
  have hG0 : 0 < G := by positivity
  set δ' := min δ (min (m / (2 * (C + 1))) (1 / (2 * G))) with hδ'
  have hδ'0 : 0 < δ' := lt_min hδ (lt_min (by positivity) (by positivity))
  obtain ⟨N, hN⟩ := exists_nat_gt (W / δ')
  refine ⟨‖u0‖ * (Real.exp (-W) * (W ^ (p + 1) * (m / 2 * Real.exp (-1)) / 2)), N + 1,
    by positivity, fun n hn => ?_⟩
  have hn0 : (0:ℝ) < n := by exact_mod_cast (by omega : 0 < n)
  set z : ℂ := lam * (tEnd / n : ℝ) with hz
  have hzn : ‖z‖ = W / n := by
    rw [hz, norm_mul, Complex.norm_real, Real.norm_eq_abs, abs_div, abs_of_pos hn0, hW]; ring
  have hzδ' : ‖z‖ ≤ δ' := by
    rw [hzn, div_le_iff₀ hn0]
    rw [div_lt_iff₀ hδ'0] at hN
    have : (N:ℝ) ≤ n := by exact_mod_cast (by omega : N ≤ n)
    nlinarith
  have hzδ : ‖z‖ ≤ δ := hzδ'.trans (min_le_left _ _)
  have hz1 : ‖z‖ ≤ 1 := hzδ.trans hδ1
  have hzC : C * ‖z‖ ≤ m / 2 := by
    have h1 : ‖z‖ ≤ m / (2 * (C + 1)) := hzδ'.trans ((min_le_right _ _).trans (min_le_left _ _))
    rw [le_div_iff₀ (by positivity)] at h1
    nlinarith [norm_nonneg z]
  have hzG : G * ‖z‖ ≤ 1 / 2 := by
    have h1 : ‖z‖ ≤ 1 / (2 * G) := hzδ'.trans ((min_le_right _ _).trans (min_le_right _ _))
    rw [le_div_iff₀ (by positivity)] at h1
    linarith
  obtain ⟨hdet, herr⟩ := hloc z hzδ
  have hsum : ∑ k ∈ Finset.range (p + 1), z ^ (k + 1) * (linResidual g.Q b k : ℂ) =
      z ^ (p + 1) * (linResidual g.Q b p : ℂ) := by
    rw [Finset.sum_range_succ, Finset.sum_eq_zero, zero_add]
    intro k hk
    have : linResidual g.Q b k = 0 := by
      rw [linResidual, h k (Finset.mem_range.mp hk)]; ring
    rw [this]; simp
  rw [hsum] at herr
  have hnm : ‖z ^ (p + 1) * (linResidual g.Q b p : ℂ)‖ = ‖z‖ ^ (p + 1) * m := by
    rw [norm_mul, norm_pow, Complex.norm_real, Real.norm_eq_abs]
  set D := stabilityFunction g.Q b z - Complex.exp z with hD
  have hpz : C * ‖z‖ ^ (p + 1 + 1) = C * ‖z‖ * ‖z‖ ^ (p + 1) := by ring
  have hDu : ‖D‖ ≤ (m + C) * ‖z‖ ^ (p + 1) := by
    have h1 := norm_sub_norm_le D (z ^ (p + 1) * (linResidual g.Q b p : ℂ))
    have h2 : C * ‖z‖ * ‖z‖ ^ (p + 1) ≤ C * ‖z‖ ^ (p + 1) :=
      mul_le_mul_of_nonneg_right (mul_le_of_le_one_right hC hz1) (by positivity)
    rw [hnm] at h1
    linarith
  have hDl : m / 2 * ‖z‖ ^ (p + 1) ≤ ‖D‖ := by
    have h1 := norm_sub_norm_le (z ^ (p + 1) * (linResidual g.Q b p : ℂ)) D
    rw [norm_sub_rev (z ^ (p + 1) * (linResidual g.Q b p : ℂ)) D] at h1
    have h2 : C * ‖z‖ * ‖z‖ ^ (p + 1) ≤ m / 2 * ‖z‖ ^ (p + 1) :=
      mul_le_mul_of_nonneg_right hzC (by positivity)
    rw [hnm] at h1
    linarith
  have hnz : n * ‖z‖ = W := by rw [hzn]; field_simp
  have hsmall : n * ((m + C) * ‖z‖ ^ (p + 1) * Real.exp ‖z‖) ≤ 1 / 2 := by
    have h1 : ‖z‖ ^ p ≤ ‖z‖ := by
      obtain ⟨q, rfl⟩ : ∃ q, p = q + 1 := ⟨p - 1, by omega⟩
      rw [pow_succ]
      exact mul_le_of_le_one_left (norm_nonneg _) (pow_le_one₀ (norm_nonneg _) hz1)
    have h2 : Real.exp ‖z‖ ≤ Real.exp 1 := Real.exp_le_exp.mpr hz1
    calc n * ((m + C) * ‖z‖ ^ (p + 1) * Real.exp ‖z‖)
        = (m + C) * (n * ‖z‖) * (‖z‖ ^ p * Real.exp ‖z‖) := by ring
      _ ≤ (m + C) * (n * ‖z‖) * (‖z‖ * Real.exp 1) := by
          refine mul_le_mul_of_nonneg_left ?_ (by positivity)
          exact mul_le_mul h1 h2 (Real.exp_pos _).le (norm_nonneg _)
      _ = G * ‖z‖ := by rw [hnz, hG]; ring
      _ ≤ _ := hzG
  obtain ⟨e, he, hle, -⟩ := errorDahlquist_of_solve g lam u0 tEnd n emb _ (hsol n (by omega) hdet)
  refine ⟨e, he, le_trans ?_ (hle n le_rfl)⟩
  have hpe := power_error_ge n (by positivity) hDu hsmall
  have e1 : lam * ((n * (tEnd / n) : ℝ) : ℂ) = n * z := by rw [hz]; push_cast; ring
  rw [e1, mul_comm (_ ^ n) u0, ← mul_sub, norm_mul, mul_div_assoc]
  refine mul_le_mul_of_nonneg_left (le_trans ?_ hpe) hu.le
  rw [hnz, mul_div_assoc]
  refine mul_le_mul_of_nonneg_left ?_ (Real.exp_pos _).le
  have h3 : Real.exp (-1) ≤ Real.exp (-‖z‖) := Real.exp_le_exp.mpr (by linarith)
  have e2 : W ^ (p + 1) * (m / 2 * Real.exp (-1)) / 2 / n ^ p =
      n * (m / 2 * ‖z‖ ^ (p + 1) * Real.exp (-1)) / 2 := by
    rw [hzn, div_pow, pow_succ (n:ℝ) p]
    field_simp
  rw [e2]
  have h4 : m / 2 * ‖z‖ ^ (p + 1) * Real.exp (-1) ≤ ‖D‖ * Real.exp (-‖z‖) :=
    mul_le_mul hDl h3 (Real.exp_pos _).le (norm_nonneg _)
  have := mul_le_mul_of_nonneg_left h4 hn0.le
  linarith

/-- C31, converse: if the conditions hold up to `p > 0` and the one for `p + 1` fails, then the error is
not smaller than a multiple of `nSteps^{-p}`, for every problem that is not trivial. -/
theorem C31_order_sharp {M : ℕ} (g : QGenerator M) (p : ℕ) (hp : 0 < p)
    (h : LinearOrder g.Q g.weights p)
    (hne : g.weights ⬝ᵥ ((g.Q ^ p) *ᵥ fun _ => 1) ≠ 1 / (p + 1).factorial)
    (lam u0 : ℂ) (tEnd : ℝ) (hlam : lam ≠ 0) (hu0 : u0 ≠ 0) (htEnd : tEnd ≠ 0) :
    ∃ (c : ℝ) (N : ℕ), 0 < c ∧ ∀ n : ℕ, N ≤ n →
      ∃ e, g.errorDahlquist lam u0 tEnd n = .ok e ∧ c / n ^ p ≤ e :=
  global_order_sharp g g.weights false p hp lam u0 tEnd hlam hu0 htEnd
    (fun n hn hd => C30_solveDahlquist g lam u0 tEnd n hn hd) h hne

/-- Backward Euler meets the conditions up to order 1 (and not 2). -/
example : LinearOrder backwardEulerGen.Q backwardEulerGen.weights 1 ∧
    ¬ LinearOrder backwardEulerGen.Q backwardEulerGen.weights 2 := by
  constructor
  · intro k hk
    obtain rfl : k = 0 := by omega
    simp [backwardEulerGen, dotProduct]
  · intro h
    have := h 1 (by norm_num)
    simp [backwardEulerGen, dotProduct] at this

/-- Backward Euler is exactly of order 1. -/
example : ∃ (c : ℝ) (N : ℕ), 0 < c ∧ ∀ n : ℕ, N ≤ n →
    ∃ e, backwardEulerGen.errorDahlquist (-1) 1 1 n = .ok e ∧ c / n ^ 1 ≤ e := by
  refine C31_order_sharp backwardEulerGen 1 (by norm_num) ?_ ?_ (-1) 1 1 (by norm_num) (by norm_num)
    (by norm_num)
  · intro k hk
    obtain rfl : k = 0 := by omega
    simp [backwardEulerGen, dotProduct]
  · simp [backwardEulerGen, dotProduct]

/-- Instance of `C31_linear_order`. -/
example : ∃ (K : ℝ) (N : ℕ), ∀ n : ℕ, N ≤ n → ∃ e, backwardEulerGen.errorDahlquist Complex.I 1 2 n = .ok e ∧
    e ≤ K / n ^ 1 :=
  C31_linear_order backwardEulerGen 1 (fun k hk => by
    obtain rfl : k = 0 := by omega
    simp [backwardEulerGen, dotProduct]) Complex.I 1 2

/-- Instance of `C31_linear_order_embedded`: embedded weights equal to the weights. -/
example : ∃ (K : ℝ) (N : ℕ), ∀ n : ℕ, N ≤ n → ∃ e,
    ({ backwardEulerGen with weightsEmbedded := .ok ⟨1, fun _ => 1⟩ } : QGenerator 1).errorDahlquist
      Complex.I 1 2 n none true = .ok e ∧ e ≤ K / n ^ 1 :=
  C31_linear_order_embedded { backwardEulerGen with weightsEmbedded := .ok ⟨1, fun _ => 1⟩ } (fun _ => 1) rfl 1
    (fun k hk => by
      obtain rfl : k = 0 := by omega
      simp [backwardEulerGen, dotProduct]) Complex.I 1 2

/-- Instance of `C30_solveDahlquist_embedded`. -/
example : ∃ u, ({ backwardEulerGen with weightsEmbedded := .ok ⟨1, fun _ => 1⟩ } : QGenerator 1).solveDahlquist
    (-1) 1 2 (2 : ℕ) true = .ok u :=
  ⟨_, C30_solveDahlquist_embedded { backwardEulerGen with weightsEmbedded := .ok ⟨1, fun _ => 1⟩ } (fun _ => 1) rfl
    (-1) 1 2 2 (by norm_num) (by
      rw [det_fin_one]
      simp [backwardEulerGen])⟩

end QMat
