import Verif.Props.SDCSweeps

/-!
# C43, C44, C80, C81: coefficients computed from `Q`, by their names
-/

namespace QMat

open Spec Matrix

variable {M : ℕ}

/-! ## C43, C44 -/

/-- C43: name `LDU`. -/
theorem C43_by_name (ext : ExternalNum) (Q : Matrix (Fin M) (Fin M) ℝ) (k : Option ℤ) :
    ∃ A : Matrix (Fin M) (Fin M) ℝ, getQD ext "LDU" (kwQ Q) k = .ok ⟨M, A⟩ ∧ (∀ i j, i ≠ j → A i j = 0) ∧
      ((∀ k (hk : k < M), (Q.submatrix (Fin.castLE hk.le) (Fin.castLE hk.le)).det ≠ 0) →
        ∃ L U : Matrix (Fin M) (Fin M) ℝ, (∀ i, L i i = 1) ∧ (∀ i j, i < j → L i j = 0) ∧
          (∀ i, U i i = 1) ∧ (∀ i j, j < i → U i j = 0) ∧ L * A * U = Q) := by
  obtain ⟨s, hs, h1, h2, h3, h4, h5, h6⟩ := C43_ldu Q
  have e : getQD ext "LDU" (kwQ Q) k = (do
      let A ← computeLDU Q
      return (⟨M, A⟩ : Σ n, Matrix (Fin n) (Fin n) ℝ)) := rfl
  refine ⟨s.D, ?_, h5, fun hm => ⟨s.L, s.U, h1, h2, h3, h4, h6 hm⟩⟩
  rw [e]
  simp only [computeLDU, hs, bind, Except.bind, pure, Except.pure]

/-- Instance: a matrix with nonzero leading minors. -/
example (ext : ExternalNum) : ∃ A : Matrix (Fin 2) (Fin 2) ℝ, getQD ext "LDU" (kwQ !![2, 4; 6, 5]) none = .ok ⟨2, A⟩ ∧
    ∃ L U : Matrix (Fin 2) (Fin 2) ℝ, L * A * U = !![2, 4; 6, 5] := by
  obtain ⟨A, h, -, h'⟩ := C43_by_name ext (!![2, 4; 6, 5] : Matrix (Fin 2) (Fin 2) ℝ) none
  obtain ⟨L, U, -, -, -, -, hLU⟩ := h' fun k hk => by
    interval_cases k
    · simp
    · simp [Matrix.det_fin_one, Matrix.submatrix]
  exact ⟨A, h, L, U, hLU⟩

/-- C44: names `LU` and `LU2`. -/
theorem C44_by_name (ext : ExternalNum) (Q : Matrix (Fin M) (Fin M) ℝ)
    (hlu : IsPLU Qᵀ (ext.lu Qᵀ).1 (ext.lu Qᵀ).2.1 (ext.lu Qᵀ).2.2) (hP : (ext.lu Qᵀ).1 = 1) (hdet : Q.det ≠ 0)
    (k : Option ℤ) :
    ∃ A : Matrix (Fin M) (Fin M) ℝ, getQD ext "LU" (kwQ Q) k = .ok ⟨M, A⟩ ∧
      getQD ext "LU2" (kwQ Q) k = .ok ⟨M, (2:ℝ) • A⟩ ∧ (∀ i j, i < j → A i j = 0) ∧ A.det ≠ 0 ∧
      (1 - A⁻¹ * Q) ^ M = 0 ∧
      (1 - ((2:ℝ) • A)⁻¹ * Q - (1 / 2 : ℝ) • (1 : Matrix (Fin M) (Fin M) ℝ)) ^ M = 0 := by
  obtain ⟨h1, ⟨N, -, hN⟩, h3⟩ := C44_lu_nilpotent ext Q hlu hP
  obtain ⟨h4, h5⟩ := C44_lu2 ext Q hlu hP hdet
  refine ⟨computeLU ext Q, rfl, by rw [← h4]; rfl, h1, fun h0 => hdet ?_, h3 hdet, by rw [← h4]; exact h5⟩
  rw [hN, Matrix.det_mul, h0, zero_mul]

/-! ## C80 -/

/-- Largest modulus of the complex eigenvalues of a real matrix. -/
noncomputable def specRadius (A : Matrix (Fin M) (Fin M) ℝ) : ℝ := sSup (norm '' spectrum ℂ (cmat A))

theorem minRho_eq (Q : Matrix (Fin M) (Fin M) ℝ) (x : Fin M → ℝ) :
    minRho Q x = specRadius (1 - Matrix.diagonal x * Q) := by
  unfold minRho specRadius
  congr 1
  ext r
  simp only [Set.mem_setOf_eq, Set.mem_image, Matrix.mem_spectrum_iff_isRoot_charpoly]
  constructor
  · rintro ⟨μ, h, rfl⟩; exact ⟨μ, h, rfl⟩
  · rintro ⟨μ, h, rfl⟩; exact ⟨μ, h, rfl⟩

/-- C80: `MIN` takes the inverse of the diagonal matrix on which `scipy.optimize.minimize`, started at `10`, ends when
it is given the spectral radius of `I - diag(x) Q`. -/
theorem C80_value (ext : ExternalNum) (Q : Matrix (Fin M) (Fin M) ℝ) (x : Fin M → ℝ)
    (hx : x = ext.minimize (fun y => specRadius (1 - Matrix.diagonal y * Q)) fun _ => 10) (k : Option ℤ) :
    ((∀ i, x i ≠ 0) → getQD ext "MIN" (kwQ Q) k = .ok ⟨M, Matrix.diagonal fun i => 1 / x i⟩) ∧
    ((∃ i, x i = 0) → getQD ext "MIN" (kwQ Q) k = .error .linAlgError) := by
  have e : getQD ext "MIN" (kwQ Q) k = (do
      let A ← npInv (Matrix.diagonal x)
      return (⟨M, A⟩ : Σ n, Matrix (Fin n) (Fin n) ℝ)) := by
    rw [hx, show (fun y => specRadius (1 - Matrix.diagonal y * Q)) = minRho Q from
      funext fun y => (minRho_eq Q y).symm]
    rfl
  rw [e]
  constructor
  · intro h
    have hd : (Matrix.diagonal x).det ≠ 0 := by
      rw [det_diagonal, Finset.prod_ne_zero_iff]; exact fun i _ => h i
    rw [npInv, if_neg hd]
    simp only [bind, Except.bind, pure, Except.pure]
    congr 2
    refine Matrix.inv_eq_right_inv ?_
    rw [diagonal_mul_diagonal, ← diagonal_one]
    congr 1
    funext i
    exact mul_one_div_cancel (h i)
  · rintro ⟨i, hi⟩
    rw [npInv, if_pos (by rw [det_diagonal]; exact Finset.prod_eq_zero (Finset.mem_univ i) hi)]
    rfl

/-- C80: if the minimizer finds a minimum, no diagonal `QΔ` has a smaller spectral radius of the stiff sweep
`I - QΔ⁻¹ Q` than `MIN`. -/
theorem C80_optimal (ext : ExternalNum) (Q : Matrix (Fin M) (Fin M) ℝ) (x : Fin M → ℝ)
    (hx : x = ext.minimize (fun y => specRadius (1 - Matrix.diagonal y * Q)) fun _ => 10)
    (hmin : ∀ y, specRadius (1 - Matrix.diagonal x * Q) ≤ specRadius (1 - Matrix.diagonal y * Q))
    (h0 : ∀ i, x i ≠ 0) (k : Option ℤ) :
    ∃ A : Matrix (Fin M) (Fin M) ℝ, getQD ext "MIN" (kwQ Q) k = .ok ⟨M, A⟩ ∧ (∀ i j, i ≠ j → A i j = 0) ∧
      A.det ≠ 0 ∧ ∀ d : Fin M → ℝ, (∀ i, d i ≠ 0) →
        specRadius (1 - A⁻¹ * Q) ≤ specRadius (1 - (Matrix.diagonal d)⁻¹ * Q) := by
  refine ⟨_, (C80_value ext Q x hx k).1 h0, fun i j h => Matrix.diagonal_apply_ne _ h, ?_, fun d hd => ?_⟩
  · rw [det_diagonal, Finset.prod_ne_zero_iff]
    exact fun i _ => one_div_ne_zero (h0 i)
  · have hinv : ∀ y : Fin M → ℝ, (∀ i, y i ≠ 0) → (Matrix.diagonal y)⁻¹ = Matrix.diagonal fun i => 1 / y i := by
      intro y hy
      refine Matrix.inv_eq_right_inv ?_
      rw [diagonal_mul_diagonal, ← diagonal_one]
      congr 1
      funext i
      exact mul_one_div_cancel (hy i)
    rw [hinv _ fun i => one_div_ne_zero (h0 i), hinv d hd]
    simp only [one_div_one_div]
    exact hmin _

/-- The objective of `MIN` for one node. -/
theorem specRadius_one (q y : ℝ) :
    specRadius (1 - Matrix.diagonal (fun _ => y) * !![q] : Matrix (Fin 1) (Fin 1) ℝ) = |1 - y * q| := by
  have hs : spectrum ℂ (cmat (1 - Matrix.diagonal (fun _ => y) * !![q] : Matrix (Fin 1) (Fin 1) ℝ)) =
      {((1 - y * q : ℝ) : ℂ)} := by
    ext μ
    rw [spectrum.mem_iff, Matrix.isUnit_iff_isUnit_det, isUnit_iff_ne_zero, not_not, det_fin_one,
      Set.mem_singleton_iff, Matrix.algebraMap_eq_diagonal]
    simp [sub_eq_zero]
  rw [specRadius, hs, Set.image_singleton, csSup_singleton, Complex.norm_real, Real.norm_eq_abs]

/-! ## C81 for named coefficients -/

theorem nilpotent_spectrum {A : Matrix (Fin M) (Fin M) ℝ} {n : ℕ} (h : A ^ n = 0) :
    ∀ μ ∈ spectrum ℂ (cmat A), ‖μ‖ < 1 := by
  intro μ hμ
  obtain ⟨v, hv, e⟩ := eigen_of_mem hμ
  have h1 := pow_mulVec_eigen e n
  have h2 : cmat A ^ n = 0 := by
    have : cmat A ^ n = cmat (A ^ n) := (Matrix.map_pow A Complex.ofRealHom n).symm
    rw [this, h]; ext i j; simp
  rw [h2, zero_mulVec, eq_comm, smul_eq_zero] at h1
  have h3 : μ = 0 := by
    rcases h1 with h1 | h1
    · by_contra h4; exact pow_ne_zero n h4 h1
    · exact absurd h1 hv
  rw [h3]; simp

/-- C81: for `LU` and `LU2` (no row exchange, invertible `Q`) and every large `z`. -/
theorem C81_stiff_lu (ext : ExternalNum) (Q : Matrix (Fin M) (Fin M) ℝ)
    (hlu : IsPLU Qᵀ (ext.lu Qᵀ).1 (ext.lu Qᵀ).2.1 (ext.lu Qᵀ).2.2) (hP : (ext.lu Qᵀ).1 = 1) (hdet : Q.det ≠ 0)
    (k : Option ℤ) (name : String) (hname : name = "LU" ∨ name = "LU2") :
    ∃ A : Matrix (Fin M) (Fin M) ℝ, getQD ext name (kwQ Q) k = .ok ⟨M, A⟩ ∧
      ∃ R, ∀ z : ℂ, R < ‖z‖ → SweepsContract z Q A := by
  obtain ⟨A, h1, h2, -, hd, h3, h4⟩ := C44_by_name ext Q hlu hP hdet k
  rcases hname with rfl | rfl
  · exact ⟨A, h1, C81_stiff Q A hd (nilpotent_spectrum h3)⟩
  · refine ⟨_, h2, C81_stiff Q _ (by rw [det_smul]; exact mul_ne_zero (by positivity) hd) fun μ hμ => ?_⟩
    obtain ⟨v, hv, e⟩ := eigen_of_mem hμ
    have e2 : cmat (1 - ((2:ℝ) • A)⁻¹ * Q - (1 / 2 : ℝ) • (1 : Matrix (Fin M) (Fin M) ℝ)) *ᵥ v =
        (μ - 1 / 2) • v := by
      have e3 : cmat (1 - ((2:ℝ) • A)⁻¹ * Q - (1 / 2 : ℝ) • (1 : Matrix (Fin M) (Fin M) ℝ)) =
          cmat (1 - ((2:ℝ) • A)⁻¹ * Q) - (1 / 2 : ℂ) • 1 := by
        ext i j
        by_cases hij : i = j
        · subst hij; simp
        · simp [hij]
      rw [e3, sub_mulVec, e, smul_mulVec, one_mulVec, sub_smul]
    have h5 := pow_mulVec_eigen e2 M
    have h6 : cmat (1 - ((2:ℝ) • A)⁻¹ * Q - (1 / 2 : ℝ) • (1 : Matrix (Fin M) (Fin M) ℝ)) ^ M = 0 := by
      have : ∀ B : Matrix (Fin M) (Fin M) ℝ, cmat B ^ M = cmat (B ^ M) :=
        fun B => (Matrix.map_pow B Complex.ofRealHom M).symm
      rw [this, h4]; ext i j; simp
    rw [h6, zero_mulVec, eq_comm, smul_eq_zero] at h5
    have h7 : μ - 1 / 2 = 0 := by
      by_contra h8; exact pow_ne_zero M h8 (h5.resolve_right hv)
    rw [sub_eq_zero.mp h7]
    norm_num

/-- C81: for `MIN-SR-S` (when `fsolve` finds roots, see C47) and every large `z`. -/
theorem C81_stiff_minsrs (ext : ExternalNum) {nt qt : String} (c : Collocation M)
    (hc : Collocation.new M nt qt = .ok c) (hqt : qt = "GAUSS" ∨ qt = "RADAU-RIGHT") (h0 : ∀ i, c.nodes i ≠ 0)
    (hsolve : 2 ≤ M → ∀ x0, (∀ i, ext.fsolve (StiffSystem c.Q c.nodes) x0 i ≠ 0) ∧
      StiffSystem c.Q c.nodes (ext.fsolve (StiffSystem c.Q c.nodes) x0) = 0) (k : Option ℤ) :
    ∃ A : Matrix (Fin M) (Fin M) ℝ, getQD ext "MIN-SR-S" (kwColl c) k = .ok ⟨M, A⟩ ∧
      ∃ R, ∀ z : ℂ, R < ‖z‖ → SweepsContract z c.Q A := by
  obtain ⟨d, hd, hd0, h⟩ := C47_minsrs_nilpotent ext c hc hqt h0 hsolve k
  refine ⟨_, hd, C81_stiff _ _ ?_ (nilpotent_spectrum h)⟩
  rw [det_diagonal, Finset.prod_ne_zero_iff]
  exact fun i _ => hd0 i

/-! ## The hypotheses are satisfiable -/

-- C43_by_name: a matrix with nonzero leading minors
example : ∀ k (hk : k < 2), ((!![1, 2; 3, 4] : Matrix (Fin 2) (Fin 2) ℝ).submatrix
    (Fin.castLE hk.le) (Fin.castLE hk.le)).det ≠ 0 := by
  intro k hk
  have : k = 0 ∨ k = 1 := by omega
  rcases this with rfl | rfl
  · simp
  · simp [det_fin_one, Fin.castLE]

/-- An `lu` that is right on `!![4, 2; 2, 3]`, and a `minimize` that is right on one node with `Q = 1/2`. -/
noncomputable def qBasedExt : ExternalNum where
  lu := fun {n} _ => if h : n = 2 then h ▸ (1, !![1, 0; 1/2, 1], !![4, 2; 0, 2]) else (1, 1, 1)
  fsolve := fun _ x => x
  minimize := fun _ _ _ => 2

-- C44_by_name, C81_stiff_lu
example : IsPLU (!![4, 2; 2, 3] : Matrix (Fin 2) (Fin 2) ℝ)ᵀ (qBasedExt.lu (!![4, 2; 2, 3] : Matrix (Fin 2) (Fin 2) ℝ)ᵀ).1
      (qBasedExt.lu (!![4, 2; 2, 3] : Matrix (Fin 2) (Fin 2) ℝ)ᵀ).2.1
      (qBasedExt.lu (!![4, 2; 2, 3] : Matrix (Fin 2) (Fin 2) ℝ)ᵀ).2.2 ∧
    (qBasedExt.lu (!![4, 2; 2, 3] : Matrix (Fin 2) (Fin 2) ℝ)ᵀ).1 = 1 ∧
    (!![4, 2; 2, 3] : Matrix (Fin 2) (Fin 2) ℝ).det ≠ 0 := by
  refine ⟨⟨⟨1, fun i j => ?_⟩, fun i => ?_, fun i j h => ?_, fun i j h => ?_, ?_⟩, rfl, ?_⟩
  · change (1 : Matrix (Fin 2) (Fin 2) ℝ) i j = _
    rw [Matrix.one_apply]; rfl
  · change (!![1, 0; 1/2, 1] : Matrix (Fin 2) (Fin 2) ℝ) i i = 1
    fin_cases i <;> rfl
  · change (!![1, 0; 1/2, 1] : Matrix (Fin 2) (Fin 2) ℝ) i j = 0
    fin_cases i <;> fin_cases j <;> first | rfl | simp at h
  · change (!![4, 2; 0, 2] : Matrix (Fin 2) (Fin 2) ℝ) i j = 0
    fin_cases i <;> fin_cases j <;> first | rfl | simp at h
  · change _ = (1 : Matrix (Fin 2) (Fin 2) ℝ) * !![1, 0; 1/2, 1] * !![4, 2; 0, 2]
    ext i j
    fin_cases i <;> fin_cases j <;> simp [Matrix.mul_apply, Fin.sum_univ_two] <;> norm_num
  · rw [det_fin_two]; norm_num

-- C80_value, C80_optimal
example : (fun _ => 2) = qBasedExt.minimize
      (fun y => specRadius (1 - Matrix.diagonal y * (!![1/2] : Matrix (Fin 1) (Fin 1) ℝ))) (fun _ => 10) ∧
    (∀ y, specRadius (1 - Matrix.diagonal (fun _ => 2) * (!![1/2] : Matrix (Fin 1) (Fin 1) ℝ)) ≤
      specRadius (1 - Matrix.diagonal y * (!![1/2] : Matrix (Fin 1) (Fin 1) ℝ))) ∧
    ∀ i : Fin 1, (fun _ => (2:ℝ)) i ≠ 0 := by
  refine ⟨rfl, fun y => ?_, fun _ => two_ne_zero⟩
  have e : y = fun _ => y 0 := by funext i; rw [Subsingleton.elim i 0]
  rw [e, specRadius_one, specRadius_one]
  norm_num

end QMat
