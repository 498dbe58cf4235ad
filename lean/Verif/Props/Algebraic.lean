import Verif.Model.QDeltaGen
import Verif.Lemmas.LDU
import Verif.Lemmas.Nilpotent
import Mathlib.Tactic.NormNum

/-!
# C43, C44: LDU factorization and the LU trick
-/

namespace QMat

open Matrix

/-! ## C43 -/

/-- C43: `lduFactorization` of a square matrix never raises; `L` is unit lower triangular, `U` unit
upper triangular, `D` diagonal; and if the leading principal minors of size `1..n-1` do not vanish
then `L D U = A` (the pivots that are divided by are then non-zero). -/
theorem C43_ldu {n : ℕ} (A : Matrix (Fin n) (Fin n) ℝ) :
    ∃ s, lduFactorization A = .ok s ∧
      (∀ i, s.L i i = 1) ∧ (∀ i j, i < j → s.L i j = 0) ∧
      (∀ i, s.U i i = 1) ∧ (∀ i j, j < i → s.U i j = 0) ∧
      (∀ i j, i ≠ j → s.D i j = 0) ∧
      ((∀ k (hk : k < n), (A.submatrix (Fin.castLE hk.le) (Fin.castLE hk.le)).det ≠ 0) →
        s.L * s.D * s.U = A) := by
  obtain ⟨s, hs, h⟩ := ldu_inv A
  exact ⟨s, hs, h.Ldiag, h.Lzero, h.Udiag, h.Uzero, h.diag,
    fun hm => ldu_prod h ((ldu_pivots_iff h).mpr hm)⟩

/-- Instance: a matrix whose leading entry is not zero. -/
example : ∃ s, lduFactorization (!![2, 4; 6, 5] : Matrix (Fin 2) (Fin 2) ℝ) = .ok s ∧
    s.L * s.D * s.U = !![2, 4; 6, 5] := by
  obtain ⟨s, h, -, -, -, -, -, h'⟩ := C43_ldu (!![2, 4; 6, 5] : Matrix (Fin 2) (Fin 2) ℝ)
  refine ⟨s, h, h' fun k hk => ?_⟩
  interval_cases k
  · simp
  · simp [Matrix.det_fin_one, Matrix.submatrix]

/-- C43: `lduFactorization` of a matrix that is not square raises `AssertionError`. -/
theorem C43_not_square {n m : ℕ} (h : n ≠ m) (A : Matrix (Fin n) (Fin m) ℝ) :
    lduFactorization A = .error .assertionError := by
  simp [lduFactorization, h]

/-- Instance: two rows, three columns. -/
example (A : Matrix (Fin 2) (Fin 3) ℝ) : lduFactorization A = .error .assertionError :=
  C43_not_square (by norm_num) A

/-- C43: the factors are unique, so `D` is *the* diagonal factor: any factorization of an invertible
matrix into unit lower, diagonal and unit upper factors is the one returned. -/
theorem C43_unique {n : ℕ} (A L D U : Matrix (Fin n) (Fin n) ℝ) (hA : A.det ≠ 0)
    (hL : ∀ i, L i i = 1) (hL0 : ∀ i j, i < j → L i j = 0) (hU : ∀ i, U i i = 1)
    (hU0 : ∀ i j, j < i → U i j = 0) (hD : ∀ i j, i ≠ j → D i j = 0) (h : L * D * U = A) :
    ∃ s, lduFactorization A = .ok s ∧ s.L = L ∧ s.D = D ∧ s.U = U := by
  obtain ⟨s, hs, hi⟩ := ldu_inv A
  -- the diagonal of `D` does not vanish
  have hdet : A.det = ∏ i, D i i := by
    rw [← h, det_mul, det_mul, det_of_isLowerTriangular L (fun i j hij => hL0 i j hij),
      det_of_isUpperTriangular (M := U) (fun i j hij => hU0 i j hij),
      det_of_isUpperTriangular (M := D) (fun i j hij => hD i j (ne_of_gt hij))]
    simp [hL, hU]
  have hD0 : ∀ i, D i i ≠ 0 := fun i => by
    have := hA
    rw [hdet] at this
    exact Finset.prod_ne_zero_iff.mp this i (Finset.mem_univ i)
  -- the given factors satisfy the recurrences
  have hent : ∀ a b, ∑ k, L a k * D k k * U k b = A a b := by
    intro a b
    rw [← h, Matrix.mul_apply]
    refine Finset.sum_congr rfl fun k _ => ?_
    congr 1
    rw [Matrix.mul_apply]
    symm
    refine Finset.sum_eq_single k (fun j _ hj => ?_) (by simp)
    rw [hD j k hj, mul_zero]
  have e2 : ∀ a b i : Fin n, (∀ k, i < k → L a k * D k k * U k b = 0) →
      A a b = lduDot ⟨L, D, U⟩ i a b + L a i * D i i * U i b := by
    intro a b i hz
    unfold lduDot
    rw [← hent a b, ← Finset.sum_filter_add_sum_filter_not Finset.univ (fun k => k < i)]
    congr 1
    refine Finset.sum_eq_single i (fun k hk hne => ?_) (by simp)
    exact hz k (lt_of_le_of_ne (by simpa using hk) (Ne.symm hne))
  have main : ∀ k : ℕ, ∀ hk : k < n, s.D ⟨k, hk⟩ ⟨k, hk⟩ = D ⟨k, hk⟩ ⟨k, hk⟩ ∧
      (∀ j, s.L j ⟨k, hk⟩ = L j ⟨k, hk⟩) ∧ ∀ j, s.U ⟨k, hk⟩ j = U ⟨k, hk⟩ j := by
    intro k
    induction k using Nat.strong_induction_on with
    | _ k ih =>
      intro hk
      have hdot : ∀ r c, lduDot s ⟨k, hk⟩ r c = lduDot ⟨L, D, U⟩ ⟨k, hk⟩ r c := fun r c =>
        lduDot_congr (fun j hj => (ih j hj j.isLt).2.1 r) (fun j hj => (ih j hj j.isLt).1)
          (fun j hj => (ih j hj j.isLt).2.2 c)
      have h1 : s.D ⟨k, hk⟩ ⟨k, hk⟩ = D ⟨k, hk⟩ ⟨k, hk⟩ := by
        rw [hi.D ⟨k, hk⟩ hk, hdot,
          e2 ⟨k, hk⟩ ⟨k, hk⟩ ⟨k, hk⟩ (fun j hj => by rw [hL0 _ _ hj]; ring), hL, hU]
        ring
      refine ⟨h1, fun j => ?_, fun j => ?_⟩
      · rcases lt_trichotomy (⟨k, hk⟩ : Fin n) j with hj | hj | hj
        · rw [hi.L ⟨k, hk⟩ j hk hj, hdot, h1,
            e2 j ⟨k, hk⟩ ⟨k, hk⟩ (fun l hl => by rw [hU0 _ _ hl]; ring), hU]
          have := hD0 ⟨k, hk⟩
          field_simp
          ring
        · rw [← hj, hi.Ldiag, hL]
        · rw [hi.Lzero _ _ hj, hL0 _ _ hj]
      · rcases lt_trichotomy (⟨k, hk⟩ : Fin n) j with hj | hj | hj
        · rw [hi.U ⟨k, hk⟩ j hk hj, hdot, h1,
            e2 ⟨k, hk⟩ j ⟨k, hk⟩ (fun l hl => by rw [hL0 _ _ hl]; ring), hL]
          have := hD0 ⟨k, hk⟩
          field_simp
          ring
        · rw [← hj, hi.Udiag, hU]
        · rw [hi.Uzero _ _ hj, hU0 _ _ hj]
  refine ⟨s, hs, ?_, ?_, ?_⟩
  · ext i j
    exact (main j j.isLt).2.1 i
  · ext i j
    by_cases hij : i = j
    · subst hij
      exact (main i i.isLt).1
    · rw [hi.diag i j hij, hD i j hij]
  · ext i j
    exact (main i i.isLt).2.2 j

/-- A matrix with non-zero leading minors, factorized. -/
example : ∃ s, lduFactorization (!![2, 4; 6, 5] : Matrix (Fin 2) (Fin 2) ℝ) = .ok s ∧
    s.L = !![1, 0; 3, 1] ∧ s.D = !![2, 0; 0, -7] ∧ s.U = !![1, 2; 0, 1] := by
  refine C43_unique _ _ _ _ ?_ ?_ ?_ ?_ ?_ ?_ ?_
  · norm_num [Matrix.det_fin_two]
  · intro i; fin_cases i <;> simp
  · intro i j; fin_cases i <;> fin_cases j <;> simp
  · intro i; fin_cases i <;> simp
  · intro i j; fin_cases i <;> fin_cases j <;> simp
  · intro i j; fin_cases i <;> fin_cases j <;> simp
  · ext i j
    fin_cases i <;> fin_cases j <;> norm_num [Matrix.mul_apply, Fin.sum_univ_two]

/-- C43: without non-zero minors the product may differ from `A` (in the model a zero pivot is divided
by with `x / 0 = 0`; numpy produces infinite or `nan` entries): no error is raised. -/
theorem C43_zero_pivot_fails :
    ∃ s, lduFactorization (!![0, 1; 1, 0] : Matrix (Fin 2) (Fin 2) ℝ) = .ok s ∧
      s.L * s.D * s.U ≠ !![0, 1; 1, 0] := by
  obtain ⟨s, hs, h⟩ := ldu_inv (!![0, 1; 1, 0] : Matrix (Fin 2) (Fin 2) ℝ)
  refine ⟨s, hs, fun hp => ?_⟩
  have h00 := congrFun (congrFun hp 0) 0
  have hd : s.D 0 0 = 0 := by
    rw [h.D 0 (by norm_num)]
    simp [lduDot]
  have h01 := congrFun (congrFun hp 0) 1
  simp [Matrix.mul_apply, Fin.sum_univ_two, h.Lzero 0 1 (by decide), h.Udiag, h.Ldiag, hd,
    h.diag 0 1 (by decide)] at h01

/-! ## C44 -/

/-- What `scipy.linalg.lu` documents for a given matrix: `A = P L U` with `P` a permutation matrix,
`L` unit lower triangular, `U` upper triangular. -/
structure IsPLU {n : ℕ} (A P L U : Matrix (Fin n) (Fin n) ℝ) : Prop where
  perm : ∃ σ : Equiv.Perm (Fin n), ∀ i j, P i j = if σ i = j then 1 else 0
  Ldiag : ∀ i, L i i = 1
  Lzero : ∀ i j, i < j → L i j = 0
  Uzero : ∀ i j, j < i → U i j = 0
  eq : A = P * L * U

/-- C44: if the LU factorization of `Q.T` needs no row exchange, `QDelta = U.T` is lower triangular
and `Q = QDelta (1 + N)` with `N^M = 0`; if `Q` is invertible then `(I - QDelta⁻¹ Q)^M = 0`: `M`
sweeps solve the stiff limit exactly. -/
theorem C44_lu_nilpotent (ext : ExternalNum) {M : ℕ} (Q : Matrix (Fin M) (Fin M) ℝ)
    (hlu : IsPLU Qᵀ (ext.lu Qᵀ).1 (ext.lu Qᵀ).2.1 (ext.lu Qᵀ).2.2) (hP : (ext.lu Qᵀ).1 = 1) :
    (∀ i j, i < j → computeLU ext Q i j = 0) ∧
    (∃ N : Matrix (Fin M) (Fin M) ℝ, N ^ M = 0 ∧ Q = computeLU ext Q * (1 + N)) ∧
    (Q.det ≠ 0 → (1 - (computeLU ext Q)⁻¹ * Q) ^ M = 0) := by
  obtain ⟨-, hL1, hL0, hU0, heq⟩ := hlu
  rw [hP, Matrix.one_mul] at heq
  set L := (ext.lu Qᵀ).2.1
  set U := (ext.lu Qᵀ).2.2 with hU
  have hQD : computeLU ext Q = Uᵀ := rfl
  have hQ : Q = Uᵀ * Lᵀ := by
    rw [← Matrix.transpose_mul, ← heq, Matrix.transpose_transpose]
  have hN : (Lᵀ - 1) ^ M = 0 := pow_eq_zero_of_strictUpper fun i j hij => by
    rcases hij.lt_or_eq with h | h
    · simp [Matrix.transpose_apply, hL0 j i h, Matrix.one_apply_ne h.ne']
    · subst h
      simp [hL1]
  refine ⟨fun i j hij => hU0 j i hij, ⟨Lᵀ - 1, hN, ?_⟩, fun hdet => ?_⟩
  · rw [hQD, add_sub_cancel, ← hQ]
  · have hUd : IsUnit (Uᵀ).det := by
      rw [isUnit_iff_ne_zero]
      intro h0
      apply hdet
      rw [hQ, det_mul, h0, zero_mul]
    have : 1 - (computeLU ext Q)⁻¹ * Q = -(Lᵀ - 1) := by
      rw [hQD]
      conv_lhs => rw [hQ]
      rw [← Matrix.mul_assoc, Matrix.nonsing_inv_mul _ hUd, Matrix.one_mul]
      abel
    rw [this, neg_pow, hN, mul_zero]

/-- C44: `LU2` is twice `LU`; where `LU` makes the stiff iteration nilpotent, `LU2` makes it
`½ I` plus a nilpotent matrix. -/
theorem C44_lu2 (ext : ExternalNum) {M : ℕ} (Q : Matrix (Fin M) (Fin M) ℝ)
    (hlu : IsPLU Qᵀ (ext.lu Qᵀ).1 (ext.lu Qᵀ).2.1 (ext.lu Qᵀ).2.2) (hP : (ext.lu Qᵀ).1 = 1)
    (hdet : Q.det ≠ 0) :
    computeLU2 ext Q = (2 : ℝ) • computeLU ext Q ∧
      (1 - (computeLU2 ext Q)⁻¹ * Q - (1 / 2 : ℝ) • (1 : Matrix (Fin M) (Fin M) ℝ)) ^ M = 0 := by
  have h2 : computeLU2 ext Q = (2 : ℝ) • computeLU ext Q := by
    ext i j
    simp [computeLU2, mul_comm]
  refine ⟨h2, ?_⟩
  obtain ⟨N, -, hN⟩ := (C44_lu_nilpotent ext Q hlu hP).2.1
  have hU : IsUnit (computeLU ext Q).det := by
    rw [isUnit_iff_ne_zero]
    intro h0
    apply hdet
    rw [hN, det_mul, h0, zero_mul]
  have h := (C44_lu_nilpotent ext Q hlu hP).2.2 hdet
  have hinv : (computeLU2 ext Q)⁻¹ = (1 / 2 : ℝ) • (computeLU ext Q)⁻¹ := by
    refine Matrix.inv_eq_left_inv ?_
    rw [h2, Matrix.smul_mul, Matrix.mul_smul, Matrix.nonsing_inv_mul _ hU, smul_smul]
    norm_num
  have : 1 - (computeLU2 ext Q)⁻¹ * Q - (1 / 2 : ℝ) • (1 : Matrix (Fin M) (Fin M) ℝ) =
      (1 / 2 : ℝ) • (1 - (computeLU ext Q)⁻¹ * Q) := by
    rw [hinv, Matrix.smul_mul, smul_sub]
    ext i j
    simp only [Matrix.sub_apply, Matrix.smul_apply, smul_eq_mul]
    ring
  rw [this, smul_pow, h, smul_zero]

/-- The collocation matrix of two Radau-right nodes: its transpose has an LU factorization without row
exchange. -/
example : IsPLU (!![5 / 12, -1 / 12; 3 / 4, 1 / 4] : Matrix (Fin 2) (Fin 2) ℝ)ᵀ 1
    !![1, 0; -1 / 5, 1] !![5 / 12, 3 / 4; 0, 2 / 5] := by
  refine ⟨⟨1, fun i j => by fin_cases i <;> fin_cases j <;> simp⟩, ?_, ?_, ?_, ?_⟩
  · intro i; fin_cases i <;> simp
  · intro i j; fin_cases i <;> fin_cases j <;> simp
  · intro i j; fin_cases i <;> fin_cases j <;> simp
  · ext i j
    fin_cases i <;> fin_cases j <;> norm_num [Matrix.mul_apply, Fin.sum_univ_two]

/-- C44 does not extend to matrices whose factorization exchanges rows (`P` is dropped by the code):
here partial pivoting (multipliers at most `1`) gives a factorization, but the iteration is not
nilpotent. -/
theorem C44_row_exchange_fails : ∃ (ext : ExternalNum) (Q : Matrix (Fin 2) (Fin 2) ℝ),
    IsPLU Qᵀ (ext.lu Qᵀ).1 (ext.lu Qᵀ).2.1 (ext.lu Qᵀ).2.2 ∧
      (∀ i j, |(ext.lu Qᵀ).2.1 i j| ≤ 1) ∧ Q.det ≠ 0 ∧
      (1 - (computeLU ext Q)⁻¹ * Q) ^ 2 ≠ 0 := by
  let P : Matrix (Fin 2) (Fin 2) ℝ := !![0, 1; 1, 0]
  let L : Matrix (Fin 2) (Fin 2) ℝ := !![1, 0; 1 / 2, 1]
  let U : Matrix (Fin 2) (Fin 2) ℝ := !![2, 4; 0, 1]
  let Q : Matrix (Fin 2) (Fin 2) ℝ := !![1, 2; 3, 4]
  let ext : ExternalNum :=
    { lu := fun {n} A => if h : n = 2 then h ▸ (P, L, U) else (1, 1, A)
      fsolve := fun _ x => x
      minimize := fun _ x => x }
  have hext : ∀ A : Matrix (Fin 2) (Fin 2) ℝ, ext.lu A = (P, L, U) := fun A => rfl
  refine ⟨ext, Q, ?_, ?_, ?_, ?_⟩
  · rw [hext]
    refine ⟨⟨Equiv.swap 0 1, ?_⟩, ?_, ?_, ?_, ?_⟩
    · intro i j
      fin_cases i <;> fin_cases j <;> simp [P]
    · intro i; fin_cases i <;> simp [L]
    · intro i j; fin_cases i <;> fin_cases j <;> simp [L]
    · intro i j; fin_cases i <;> fin_cases j <;> simp [U]
    · ext i j
      fin_cases i <;> fin_cases j <;>
        norm_num [Q, P, L, U, Matrix.mul_apply, Fin.sum_univ_two]
  · intro i j
    rw [hext]
    fin_cases i <;> fin_cases j <;> norm_num [L]
  · norm_num [Q, Matrix.det_fin_two]
  · have hinv : (computeLU ext Q)⁻¹ = !![1 / 2, 0; -2, 1] := by
      refine Matrix.inv_eq_left_inv ?_
      unfold computeLU
      rw [hext]
      ext i j
      fin_cases i <;> fin_cases j <;> norm_num [U, Matrix.mul_apply, Fin.sum_univ_two]
    rw [hinv]
    intro h
    have := congrFun (congrFun h 0) 0
    norm_num [Q, pow_two, Matrix.mul_apply, Fin.sum_univ_two] at this

end QMat
