import Verif.Spec.Ortho
import Verif.Model.Nodes
import Mathlib.Algebra.Polynomial.Monic
import Mathlib.Tactic.LinearCombination
import Mathlib.Tactic.FieldSimp

/-!
# Lemmas on the three-term recurrence and its Jacobi matrix
-/

namespace QMat

open Polynomial Spec NodesGenerator

theorem orthPoly_succ (α β : ℕ → ℝ) (n : ℕ) :
    orthPoly α β (n + 2) =
      (X - C (α (n + 1))) * orthPoly α β (n + 1) - C (β (n + 1)) * orthPoly α β n := rfl

theorem eval_orthPoly_succ (α β : ℕ → ℝ) (n : ℕ) (t : ℝ) :
    (orthPoly α β (n + 2)).eval t =
      (t - α (n + 1)) * (orthPoly α β (n + 1)).eval t - β (n + 1) * (orthPoly α β n).eval t := by
  rw [orthPoly_succ]; simp

theorem orthPoly_congr {α β α' β' : ℕ → ℝ} (n : ℕ) (hα : ∀ k < n, α k = α' k)
    (hβ : ∀ k, 1 ≤ k → k < n → β k = β' k) : orthPoly α β n = orthPoly α' β' n := by
  induction n using Nat.strong_induction_on with
  | _ n ih =>
    match n with
    | 0 => rfl
    | 1 => simp only [orthPoly]; rw [hα 0 (by omega)]
    | n + 2 =>
      rw [orthPoly_succ, orthPoly_succ, ih (n + 1) (by omega) (fun k hk => hα k (by omega))
        (fun k h1 hk => hβ k h1 (by omega)), ih n (by omega) (fun k hk => hα k (by omega))
        (fun k h1 hk => hβ k h1 (by omega)), hα (n + 1) (by omega), hβ (n + 1) (by omega) (by omega)]

theorem orthPoly_monic_degree (α β : ℕ → ℝ) (n : ℕ) :
    (orthPoly α β n).Monic ∧ (orthPoly α β n).natDegree = n := by
  induction n using Nat.strong_induction_on with
  | _ n ih =>
    match n with
    | 0 => simp [orthPoly]
    | 1 => simp [orthPoly, monic_X_sub_C]
    | n + 2 =>
      obtain ⟨m1, d1⟩ := ih (n + 1) (by omega)
      obtain ⟨m0, d0⟩ := ih n (by omega)
      have hm : ((X - C (α (n + 1))) * orthPoly α β (n + 1)).Monic := (monic_X_sub_C _).mul m1
      have hd : ((X - C (α (n + 1))) * orthPoly α β (n + 1)).natDegree = n + 2 := by
        rw [(monic_X_sub_C _).natDegree_mul m1, natDegree_X_sub_C, d1]; omega
      have hlt : (C (β (n + 1)) * orthPoly α β n).degree <
          ((X - C (α (n + 1))) * orthPoly α β (n + 1)).degree := by
        rw [degree_eq_natDegree hm.ne_zero, hd]
        refine lt_of_le_of_lt (by rw [← smul_eq_C_mul]; exact degree_smul_le _ _) ?_ (b := (orthPoly α β n).degree)
        rw [degree_eq_natDegree m0.ne_zero, d0]
        exact_mod_cast (by omega : n < n + 2)
      rw [orthPoly_succ]
      refine ⟨hm.sub_of_left hlt, ?_⟩
      rw [natDegree_eq_of_degree_eq (degree_sub_eq_left_of_degree_lt hlt), hd]

theorem orthPoly_monic (α β : ℕ → ℝ) (n : ℕ) : (orthPoly α β n).Monic :=
  (orthPoly_monic_degree α β n).1

theorem orthPoly_natDegree (α β : ℕ → ℝ) (n : ℕ) : (orthPoly α β n).natDegree = n :=
  (orthPoly_monic_degree α β n).2

theorem orthPoly_degree (α β : ℕ → ℝ) (n : ℕ) : (orthPoly α β n).degree = n := by
  rw [degree_eq_natDegree (orthPoly_monic α β n).ne_zero, orthPoly_natDegree]

/-- Mirror image: changing the sign of the `α` coefficients. -/
theorem eval_orthPoly_neg (α β : ℕ → ℝ) (n : ℕ) (t : ℝ) :
    (orthPoly (fun k => -α k) β n).eval t = (-1) ^ n * (orthPoly α β n).eval (-t) := by
  induction n using Nat.strong_induction_on with
  | _ n ih =>
    match n with
    | 0 => simp [orthPoly]
    | 1 => simp [orthPoly]; ring
    | n + 2 =>
      rw [eval_orthPoly_succ, eval_orthPoly_succ, ih (n + 1) (by omega), ih n (by omega)]
      ring

theorem evalOrthogPoly_succ (t : ℝ) (α β : ℕ → ℝ) (m : ℕ) :
    evalOrthogPoly t α β (m + 1) =
      ((evalOrthogPoly t α β m).2,
        (evalOrthogPoly t α β m).2 * (t - α m) - (evalOrthogPoly t α β m).1 * β m) := by
  have h : ∀ m, (((List.range m).map fun j => (α j, β j)).foldl (orthogPolyStep t) (0, 1, 1)).2.2 =
      (((List.range m).map fun j => (α j, β j)).foldl (orthogPolyStep t) (0, 1, 1)).2.1 := by
    intro m
    cases m with
    | zero => rfl
    | succ m =>
      simp only [List.range_succ, List.map_append, List.foldl_append, List.map_cons, List.map_nil,
        List.foldl_cons, List.foldl_nil]
      rfl
  unfold evalOrthogPoly
  simp only [List.range_succ, List.map_append, List.foldl_append, List.map_cons, List.map_nil,
    List.foldl_cons, List.foldl_nil]
  simp only [orthogPolyStep]
  rw [h m]

theorem evalOrthogPoly_zero (t : ℝ) (α β : ℕ → ℝ) : evalOrthogPoly t α β 0 = (0, 1) := rfl

theorem evalOrthogPoly_eq (t : ℝ) (α β : ℕ → ℝ) (m : ℕ) :
    evalOrthogPoly t α β (m + 1) = ((orthPoly α β m).eval t, (orthPoly α β (m + 1)).eval t) := by
  induction m with
  | zero => rw [evalOrthogPoly_succ, evalOrthogPoly_zero]; simp [orthPoly]
  | succ m ih =>
    rw [evalOrthogPoly_succ, ih]
    refine Prod.ext rfl ?_
    simp only
    rw [eval_orthPoly_succ]; ring

theorem evalOrthogPoly_snd (t : ℝ) (α β : ℕ → ℝ) (m : ℕ) :
    (evalOrthogPoly t α β m).2 = (orthPoly α β m).eval t := by
  cases m with
  | zero => simp [evalOrthogPoly_zero, orthPoly]
  | succ m => rw [evalOrthogPoly_eq]

/-! ### Jacobi matrix -/

theorem tridiagonal_mulVec (n : ℕ) (d e : ℕ → ℝ) (v : ℕ → ℝ) (hv : v n = 0) (i : Fin n) :
    Matrix.mulVec (tridiagonal n d e) (fun j => v j) i =
      d i * v i + e i * v (i + 1) + (if (i : ℕ) = 0 then 0 else e (i - 1) * v (i - 1)) := by
  change ∑ j : Fin n, tridiagonal n d e i j * v j = _
  have hsplit : ∀ j : Fin n, tridiagonal n d e i j * v j =
      (if (j : ℕ) = i then d i * v i else 0) + (if (j : ℕ) = i + 1 then e i * v (i + 1) else 0) +
        (if (j : ℕ) + 1 = i then e (i - 1) * v (i - 1) else 0) := by
    intro j
    simp only [tridiagonal, Matrix.of_apply]
    by_cases h1 : i = j
    · subst h1; simp
    · have h1' : ¬ (j : ℕ) = i := fun h => h1 (Fin.ext h.symm)
      by_cases h2 : (i : ℕ) + 1 = j
      · have : ¬ (j : ℕ) + 1 = i := by omega
        have h4 : (j : ℕ) ≠ i := by omega
        rw [if_neg h1, if_pos h2, if_neg h4, if_pos h2.symm, if_neg this, ← h2]; simp
      · have h2' : ¬ (j : ℕ) = i + 1 := fun h => h2 h.symm
        by_cases h3 : (j : ℕ) + 1 = i
        · have : (i : ℕ) - 1 = j := by omega
          simp [h1, h1', h2, h2', h3, this]
        · simp [h1, h1', h2, h2', h3]
  simp only [hsplit, Finset.sum_add_distrib]
  congr 1
  · congr 1
    · rw [Finset.sum_eq_single i]
      · simp
      · intro j _ hj; rw [if_neg (fun h => hj (Fin.ext h))]
      · simp
    · by_cases hi : (i : ℕ) + 1 < n
      · rw [Finset.sum_eq_single ⟨i + 1, hi⟩]
        · simp
        · intro j _ hj; rw [if_neg (fun h => hj (Fin.ext h))]
        · simp
      · have : (i : ℕ) + 1 = n := by omega
        rw [this, hv, mul_zero]
        simp
  · by_cases hi : (i : ℕ) = 0
    · rw [if_pos hi]
      refine Finset.sum_eq_zero fun j _ => if_neg (by omega)
    · rw [if_neg hi, Finset.sum_eq_single ⟨i - 1, by omega⟩]
      · rw [if_pos]; simp; omega
      · intro j _ hj; rw [if_neg]; intro h; apply hj; ext; simp; omega
      · simp

/-- Entries of an eigenvector of a Jacobi matrix are the orthogonal polynomials at the eigenvalue,
up to scaling; the last row says that the eigenvalue is a root. -/
theorem jacobi_eigenvector {n : ℕ} {α β : ℕ → ℝ} (hβ : ∀ k, 1 ≤ k → k < n → 0 < β k)
    {t : ℝ} {v : ℕ → ℝ} (hv : v n = 0)
    (hJ : ∀ i : Fin n, Matrix.mulVec (tridiagonal n α fun k => Real.sqrt (β (k + 1)))
      (fun j => v j) i = t * v i) :
    (∀ k < n, (∏ j ∈ Finset.range k, Real.sqrt (β (j + 1))) * v k =
      (orthPoly α β k).eval t * v 0) ∧ (orthPoly α β n).eval t * v 0 = 0 := by
  set s : ℕ → ℝ := fun k => Real.sqrt (β (k + 1)) with hs
  have hrow : ∀ k, k < n → α k * v k + s k * v (k + 1) +
      (if k = 0 then 0 else s (k - 1) * v (k - 1)) = t * v k := fun k hk => by
    rw [← hJ ⟨k, hk⟩, tridiagonal_mulVec n α _ v hv]
  have hss : ∀ k, k + 1 < n → s k * s k = β (k + 1) := fun k hk =>
    Real.mul_self_sqrt (hβ (k + 1) (by omega) hk).le
  set P : ℕ → ℝ := fun k => ∏ j ∈ Finset.range k, s j with hP
  have hPs : ∀ k, P (k + 1) = P k * s k := fun k => Finset.prod_range_succ _ _
  -- the recurrence, including the last row
  have step : ∀ k, k < n → P (k + 1) * v (k + 1) = (orthPoly α β (k + 1)).eval t * v 0 ∧
      P k * v k = (orthPoly α β k).eval t * v 0 := by
    intro k
    induction k with
    | zero =>
      intro h0
      have := hrow 0 h0
      rw [if_pos rfl, zero_add] at this
      refine ⟨?_, by simp [hP, orthPoly]⟩
      rw [hPs]
      simp only [hP, Finset.range_zero, Finset.prod_empty, orthPoly, zero_add, eval_sub, eval_X, eval_C]
      linear_combination this
    | succ k ih =>
      intro hk
      obtain ⟨h1, h0⟩ := ih (by omega)
      refine ⟨?_, h1⟩
      have := hrow (k + 1) hk
      rw [if_neg (by omega), Nat.add_sub_cancel] at this
      rw [eval_orthPoly_succ, hPs, sub_mul]
      have hk2 := hss k hk
      have e1 : (t - α (k + 1)) * (orthPoly α β (k + 1)).eval t * v 0 =
          (t - α (k + 1)) * (P (k + 1) * v (k + 1)) := by rw [h1]; ring
      have e0 : β (k + 1) * (orthPoly α β k).eval t * v 0 = β (k + 1) * (P k * v k) := by
        rw [h0]; ring
      rw [e1, e0, ← hk2, hPs]
      linear_combination P k * s k * this
  refine ⟨fun k hk => (step k hk).2, ?_⟩
  cases n with
  | zero => simp [orthPoly, hv]
  | succ n => rw [← (step n (by omega)).1, hv, mul_zero]

/-- With positive `β` the eigenvalues of the Jacobi matrix are distinct roots of `π_n`. -/
theorem jacobi_eigenvalues {n : ℕ} {α β : ℕ → ℝ} (hβ : ∀ k, 1 ≤ k → k < n → 0 < β k) :
    Function.Injective (eighTridiagonal n α fun k => Real.sqrt (β (k + 1))) ∧
    ∀ i, (orthPoly α β n).eval (eighTridiagonal n α (fun k => Real.sqrt (β (k + 1))) i) = 0 := by
  set e : ℕ → ℝ := fun k => Real.sqrt (β (k + 1)) with he
  set hA := tridiagonal_isHermitian n α e
  set V := hA.eigenvectorBasis
  -- eigenvectors extended by zero
  set ext : Fin n → ℕ → ℝ := fun i k => if h : k < n then V i ⟨k, h⟩ else 0 with hext
  have hval : ∀ i (j : Fin n), ext i j = V i j := fun i j => by simp [hext]
  have hn0 : ∀ i, ext i n = 0 := fun i => by simp [hext]
  have hJ : ∀ i (j : Fin n), Matrix.mulVec (tridiagonal n α e) (fun j => ext i j) j =
      eighTridiagonal n α e i * ext i j := by
    intro i j
    have := congrFun (hA.mulVec_eigenvectorBasis i) j
    simp only [hval]
    exact this
  have key := fun i => jacobi_eigenvector hβ (hn0 i) (hJ i)
  have hprod : ∀ k < n, (∏ j ∈ Finset.range k, Real.sqrt (β (j + 1))) ≠ 0 := fun k hk =>
    Finset.prod_ne_zero_iff.mpr fun j hj => (Real.sqrt_pos.mpr (hβ (j + 1) (by omega) (by
      have := Finset.mem_range.mp hj; omega))).ne'
  have h0 : ∀ i, ext i 0 ≠ 0 := by
    intro i h
    have hz : ∀ k : Fin n, V i k = 0 := fun k => by
      have := (key i).1 k k.isLt
      rw [h, mul_zero, hval] at this
      exact (mul_eq_zero.mp this).resolve_left (hprod k k.isLt)
    have h1 : ‖V i‖ = 1 := V.orthonormal.1 i
    have : V i = 0 := by ext k; exact hz k
    rw [this, norm_zero] at h1
    exact zero_ne_one h1
  refine ⟨fun i j hij => ?_, fun i => ?_⟩
  · by_contra hne
    have hprop : ∀ k : Fin n, ext j 0 * V i k = ext i 0 * V j k := fun k => by
      have a := (key i).1 k k.isLt
      have b := (key j).1 k k.isLt
      rw [hval] at a b
      rw [hij] at a
      have : (∏ l ∈ Finset.range k, Real.sqrt (β (l + 1))) * (ext j 0 * V i k - ext i 0 * V j k) = 0 := by
        linear_combination ext j 0 * a - ext i 0 * b
      exact sub_eq_zero.mp ((mul_eq_zero.mp this).resolve_left (hprod k k.isLt))
    have hvec : ext j 0 • V i = ext i 0 • V j := by
      ext k
      exact hprop k
    have hin : inner ℝ (V i) (ext j 0 • V i) = inner ℝ (V i) (ext i 0 • V j) := by rw [hvec]
    rw [inner_smul_right, inner_smul_right, V.inner_eq_zero hne, real_inner_self_eq_norm_sq,
      V.orthonormal.1 i] at hin
    apply h0 j
    simpa using hin
  · exact (mul_eq_zero.mp (key i).2).resolve_right (h0 i)

end QMat
