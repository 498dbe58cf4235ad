import Verif.Model.Nodes

/-!
# Weyl's inequality: sorted eigenvalues of two symmetric matrices
-/

namespace QMat

open Matrix

/-- The quadratic form of a symmetric matrix in a basis of eigenvectors. -/
theorem quadForm_eq {n : ℕ} {A : Matrix (Fin n) (Fin n) ℝ} (hA : A.IsHermitian) (v : EuclideanSpace ℝ (Fin n)) :
    v.ofLp ⬝ᵥ A *ᵥ v.ofLp = ∑ j, hA.eigenvalues j * (inner ℝ (hA.eigenvectorBasis j) v) ^ 2 := by
  have h0 : ∀ x y : EuclideanSpace ℝ (Fin n), inner ℝ x y = x.ofLp ⬝ᵥ y.ofLp := fun x y => by
    rw [EuclideanSpace.inner_eq_star_dotProduct, star_trivial, dotProduct_comm]
  have h1 : v.ofLp ⬝ᵥ A *ᵥ v.ofLp = inner ℝ v (WithLp.toLp 2 (A *ᵥ v.ofLp)) := by rw [h0]
  rw [h1, ← hA.eigenvectorBasis.sum_inner_mul_inner]
  refine Finset.sum_congr rfl fun j _ => ?_
  have h2 : inner ℝ (hA.eigenvectorBasis j) (WithLp.toLp 2 (A *ᵥ v.ofLp)) = hA.eigenvalues j * inner ℝ (hA.eigenvectorBasis j) v := by
    rw [h0, h0]
    change (hA.eigenvectorBasis j).ofLp ⬝ᵥ A *ᵥ v.ofLp = _
    have hAt : Aᵀ = A := by rw [← conjTranspose_eq_transpose_of_trivial]; exact hA
    rw [dotProduct_mulVec, ← mulVec_transpose, hAt, hA.mulVec_eigenvectorBasis, smul_dotProduct]
    rfl
  rw [h2, real_inner_comm]
  ring

theorem normSq_eq {n : ℕ} {A : Matrix (Fin n) (Fin n) ℝ} (hA : A.IsHermitian) (v : EuclideanSpace ℝ (Fin n)) :
    v.ofLp ⬝ᵥ v.ofLp = ∑ j, (inner ℝ (hA.eigenvectorBasis j) v) ^ 2 := by
  have h1 : v.ofLp ⬝ᵥ v.ofLp = inner ℝ v v := by
    rw [EuclideanSpace.inner_eq_star_dotProduct, star_trivial]
  rw [h1, ← hA.eigenvectorBasis.sum_inner_mul_inner]
  refine Finset.sum_congr rfl fun j _ => ?_
  rw [real_inner_comm]
  ring

/-- Weyl's inequality. -/
theorem weyl {n : ℕ} {A B : Matrix (Fin n) (Fin n) ℝ} (hA : A.IsHermitian) (hB : B.IsHermitian) {ε : ℝ}
    (h : ∀ v : Fin n → ℝ, v ⬝ᵥ A *ᵥ v ≤ v ⬝ᵥ B *ᵥ v + ε * (v ⬝ᵥ v)) (i : Fin n) :
    npSort hA.eigenvalues i ≤ npSort hB.eigenvalues i + ε := by
  set σ := Tuple.sort hA.eigenvalues
  set τ := Tuple.sort hB.eigenvalues
  have mA : Monotone (npSort hA.eigenvalues) := Tuple.monotone_sort _
  have mB : Monotone (npSort hB.eigenvalues) := Tuple.monotone_sort _
  let L : EuclideanSpace ℝ (Fin n) →ₗ[ℝ] ({j : Fin n // j ≠ i} → ℝ) :=
    LinearMap.pi fun j => if j.1 < i then (innerₛₗ ℝ (hA.eigenvectorBasis (σ j.1))) else (innerₛₗ ℝ (hB.eigenvectorBasis (τ j.1)))
  have hker : LinearMap.ker L ≠ ⊥ := by
    refine LinearMap.ker_ne_bot_of_finrank_lt ?_
    rw [Module.finrank_fintype_fun_eq_card, finrank_euclideanSpace, Fintype.card_fin, Fintype.card_subtype_compl, Fintype.card_fin,
      Fintype.card_subtype_eq]
    have := i.pos
    omega
  obtain ⟨v, hv, hv0⟩ := (Submodule.ne_bot_iff _).1 hker
  have hLv : ∀ j : {j : Fin n // j ≠ i}, L v j = 0 := fun j => by rw [LinearMap.mem_ker.1 hv]; rfl
  have zA : ∀ j, j < i → inner ℝ (hA.eigenvectorBasis (σ j)) v = 0 := fun j hj => by
    have := hLv ⟨j, hj.ne⟩
    simpa [L, hj] using this
  have zB : ∀ j, i < j → inner ℝ (hB.eigenvectorBasis (τ j)) v = 0 := fun j hj => by
    have := hLv ⟨j, hj.ne'⟩
    simpa [L, not_lt.2 hj.le] using this
  have hpos : 0 < v.ofLp ⬝ᵥ v.ofLp := by
    have h1 : v.ofLp ⬝ᵥ v.ofLp = inner ℝ v v := by
      rw [EuclideanSpace.inner_eq_star_dotProduct, star_trivial]
    rw [h1]
    exact real_inner_self_pos.2 hv0
  have lA : npSort hA.eigenvalues i * (v.ofLp ⬝ᵥ v.ofLp) ≤ v.ofLp ⬝ᵥ A *ᵥ v.ofLp := by
    rw [quadForm_eq hA, normSq_eq hA, Finset.mul_sum, ← Equiv.sum_comp σ, ← Equiv.sum_comp σ fun j => hA.eigenvalues j * _]
    refine Finset.sum_le_sum fun j _ => ?_
    rcases lt_or_ge j i with hj | hj
    · rw [zA j hj]; simp
    · exact mul_le_mul_of_nonneg_right (mA hj) (sq_nonneg _)
  have lB : v.ofLp ⬝ᵥ B *ᵥ v.ofLp ≤ npSort hB.eigenvalues i * (v.ofLp ⬝ᵥ v.ofLp) := by
    rw [quadForm_eq hB, normSq_eq hB, Finset.mul_sum, ← Equiv.sum_comp τ, ← Equiv.sum_comp τ fun j => npSort hB.eigenvalues i * _]
    refine Finset.sum_le_sum fun j _ => ?_
    rcases lt_or_ge i j with hj | hj
    · rw [zB j hj]; simp
    · exact mul_le_mul_of_nonneg_right (mB hj) (sq_nonneg _)
  have := h v.ofLp
  have h3 : npSort hA.eigenvalues i * (v.ofLp ⬝ᵥ v.ofLp) ≤ (npSort hB.eigenvalues i + ε) * (v.ofLp ⬝ᵥ v.ofLp) := by
    rw [add_mul]; linarith
  exact le_of_mul_le_mul_right h3 hpos

theorem sum_succ_le {n : ℕ} (v : Fin n → ℝ) {q : ℝ} (hq : 0 ≤ q) :
    ∑ a : Fin n, ∑ b : Fin n, (if (a:ℕ) + 1 = b then q * ((v a * v a + v b * v b) / 2) else 0) ≤ q * ∑ a, v a * v a := by
  have h1 : ∀ (f : Fin n → Fin n → Prop) [∀ a b, Decidable (f a b)], (∀ a b b', f a b → f a b' → b = b') →
      ∑ a : Fin n, ∑ b : Fin n, (if f a b then q * (v a * v a / 2) else 0) ≤ ∑ a, q * (v a * v a / 2) := fun f _ hf => by
    refine Finset.sum_le_sum fun a _ => ?_
    have h0 : 0 ≤ q * (v a * v a / 2) := mul_nonneg hq (by nlinarith [mul_self_nonneg (v a)])
    by_cases hb : ∃ b, f a b
    · obtain ⟨b, hb⟩ := hb
      rw [Finset.sum_eq_single b (fun c _ hc => if_neg fun hf' => hc (hf a c b hf' hb)) (by simp), if_pos hb]
    · rw [Finset.sum_eq_zero fun b _ => if_neg fun hf' => hb ⟨b, hf'⟩]
      exact h0
  have a1 := h1 (fun a b => (a:ℕ) + 1 = b) fun a b b' h h' => Fin.ext (by omega)
  have a2 := h1 (fun b a => (a:ℕ) + 1 = b) fun a b b' h h' => Fin.ext (by omega)
  rw [Finset.sum_comm] at a2
  have e : ∀ a b : Fin n, (if (a:ℕ) + 1 = b then q * ((v a * v a + v b * v b) / 2) else 0) =
      (if (a:ℕ) + 1 = b then q * (v a * v a / 2) else 0) + (if (a:ℕ) + 1 = b then q * (v b * v b / 2) else 0) := fun a b => by
    split_ifs <;> ring
  simp only [e, Finset.sum_add_distrib]
  have e2 : ∑ a, q * (v a * v a / 2) = q * (∑ a, v a * v a) / 2 := by
    rw [Finset.mul_sum, Finset.sum_div]
    exact Finset.sum_congr rfl fun a _ => by ring
  rw [e2] at a1 a2
  linarith

/-- Eigenvalues of symmetric tridiagonal matrices depend continuously on the entries. -/
theorem tridiagonal_eigenvalues_le {n : ℕ} {d e d' e' : ℕ → ℝ} {p q : ℝ} (hd : ∀ k < n, |d k - d' k| ≤ p)
    (he : ∀ k, k + 1 < n → |e k - e' k| ≤ q) (hq : 0 ≤ q) (i : Fin n) :
    npSort (eighTridiagonal n d e) i ≤ npSort (eighTridiagonal n d' e') i + (p + 2 * q) := by
  refine weyl (tridiagonal_isHermitian n d e) (tridiagonal_isHermitian n d' e') (fun v => ?_) i
  have hsub : tridiagonal n d e = tridiagonal n d' e' + tridiagonal n (fun k => d k - d' k) (fun k => e k - e' k) := by
    ext a b
    simp only [tridiagonal, Matrix.add_apply, Matrix.of_apply]
    split_ifs <;> ring
  rw [hsub, add_mulVec, dotProduct_add]
  refine add_le_add le_rfl ?_
  have key : ∀ a b : Fin n, v a * (tridiagonal n (fun k => d k - d' k) (fun k => e k - e' k) a b * v b) ≤
      (if a = b then p * (v a * v a) else 0) + (if (a:ℕ) + 1 = b then q * ((v a * v a + v b * v b) / 2) else 0)
      + (if (b:ℕ) + 1 = a then q * ((v a * v a + v b * v b) / 2) else 0) := fun a b => by
    have hv : ∀ c r : ℝ, |c| ≤ r → v a * (c * v b) ≤ r * ((v a * v a + v b * v b) / 2) := fun c r hc => by
      have h1 : v a * (c * v b) ≤ |c| * |v a * v b| := by rw [← abs_mul]; refine (le_abs_self _).trans (le_of_eq ?_); congr 1; ring
      have h2 : |v a * v b| ≤ (v a * v a + v b * v b) / 2 := by
        rw [abs_le]; constructor <;> nlinarith [sq_nonneg (v a + v b), sq_nonneg (v a - v b)]
      exact h1.trans (mul_le_mul hc h2 (abs_nonneg _) ((abs_nonneg _).trans hc))
    simp only [tridiagonal, Matrix.of_apply]
    by_cases h1 : a = b
    · subst h1
      have := hv (d a - d' a) p (hd a a.2)
      simp only [if_true, show ¬ (a:ℕ) + 1 = a by omega, if_false, add_zero]
      linarith
    · rw [if_neg h1, if_neg h1, zero_add]
      by_cases h2 : (a:ℕ) + 1 = b
      · have : ¬ (b:ℕ) + 1 = a := by omega
        rw [if_pos h2, if_pos h2, if_neg this, add_zero]
        exact hv _ _ (he a (by omega))
      · by_cases h3 : (b:ℕ) + 1 = a
        · rw [if_neg h2, if_pos h3, if_neg h2, if_pos h3, zero_add]
          exact hv _ _ (he b (by omega))
        · rw [if_neg h2, if_neg h3, if_neg h2, if_neg h3]; simp
  have hsum : v ⬝ᵥ tridiagonal n (fun k => d k - d' k) (fun k => e k - e' k) *ᵥ v =
      ∑ a, ∑ b, v a * (tridiagonal n (fun k => d k - d' k) (fun k => e k - e' k) a b * v b) := by
    simp only [dotProduct, mulVec, Finset.mul_sum]
  rw [hsum]
  refine (Finset.sum_le_sum fun a _ => Finset.sum_le_sum fun b _ => key a b).trans ?_
  have T := sum_succ_le v hq
  have T' : ∑ a : Fin n, ∑ b : Fin n, (if (b:ℕ) + 1 = a then q * ((v a * v a + v b * v b) / 2) else 0) ≤ q * ∑ a, v a * v a := by
    rw [Finset.sum_comm]
    refine le_trans (le_of_eq ?_) T
    refine Finset.sum_congr rfl fun a _ => Finset.sum_congr rfl fun b _ => ?_
    rw [add_comm (v b * v b)]
  simp only [Finset.sum_add_distrib, Finset.sum_ite_eq, Finset.mem_univ, if_true, dotProduct] at T T' ⊢
  rw [← Finset.mul_sum]
  linarith

theorem tridiagonal_eigenvalues_err {n : ℕ} {d e d' e' : ℕ → ℝ} {p q : ℝ} (hd : ∀ k < n, |d k - d' k| ≤ p)
    (he : ∀ k, k + 1 < n → |e k - e' k| ≤ q) (hq : 0 ≤ q) (i : Fin n) :
    |npSort (eighTridiagonal n d e) i - npSort (eighTridiagonal n d' e') i| ≤ p + 2 * q := by
  have h1 := tridiagonal_eigenvalues_le hd he hq i
  have h2 := tridiagonal_eigenvalues_le (d := d') (e := e') (d' := d) (e' := e) (fun k hk => by rw [abs_sub_comm]; exact hd k hk)
    (fun k hk => by rw [abs_sub_comm]; exact he k hk) hq i
  rw [abs_le]
  constructor <;> linarith

end QMat
