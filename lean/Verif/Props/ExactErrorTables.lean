import Verif.Props.ExactError
import Verif.Props.Butcher

/-!
# C102: explicit error bounds for the registered Runge-Kutta tables
-/

namespace QMat

open Spec Matrix

attribute [local simp] Quad.toReal_q Quad.toReal_r

/-- C102: one step of any method that satisfies the conditions of order `p` for linear equations up to `tol`. -/
theorem C102_method_tol {M : ℕ} (A : Matrix (Fin M) (Fin M) ℝ) (b : Fin M → ℝ) (p : ℕ) (tol : ℝ)
    (h : ∀ k < p, |b ⬝ᵥ ((A ^ k) *ᵥ fun _ => 1) - 1 / (k + 1).factorial| ≤ tol) (q : ℝ)
    (hq : ∀ i, ∑ j, |A i j| ≤ q) (hqb : ∑ j, |b j| ≤ q) (z : ℂ) (hz : ‖z‖ * q ≤ 1 / 2) (hz1 : ‖z‖ ≤ 1) :
    (1 - z • A.map Complex.ofReal).det ≠ 0 ∧ ‖stabilityFunction A b z - Complex.exp z‖ ≤ methodError ‖z‖ q p + p * tol * ‖z‖ := by
  have hq0 : 0 ≤ q := (Finset.sum_nonneg fun _ _ => abs_nonneg _).trans hqb
  have hV := C97_small z A q hq0 hq (by linarith)
  have hdet : (1 - z • A.map Complex.ofReal).det ≠ 0 := Rounding.det_ne_zero_of_bounded hV
  refine ⟨hdet, ?_⟩
  set X : Fin M → ℂ := (1 - z • A.map Complex.ofReal)⁻¹ *ᵥ fun _ => 1 with hXd
  have hX : (1 - z • cmat A) *ᵥ X = fun _ => 1 := by
    change (1 - z • A.map Complex.ofReal) *ᵥ X = _
    rw [hXd, Matrix.mulVec_mulVec, Matrix.mul_nonsing_inv _ (isUnit_iff_ne_zero.2 hdet), Matrix.one_mulVec]
  have hXn : ‖X‖ ≤ 2 := by
    have h1 := hV X
    rw [hX] at h1
    have h2 : ‖(fun _ => 1 : Fin M → ℂ)‖ ≤ 1 := by rw [pi_norm_le_iff_of_nonneg zero_le_one]; simp
    refine h1.trans ((mul_le_of_le_one_right (one_div_nonneg.2 (by linarith)) h2).trans ?_)
    rw [div_le_iff₀ (by linarith)]
    linarith
  have hXs : X = (fun _ => 1) + z • (cmat A *ᵥ X) := by
    rw [← hX, Matrix.sub_mulVec, Matrix.one_mulVec, Matrix.smul_mulVec, sub_add_cancel]
  -- dot products with the weights
  set dot : (Fin M → ℂ) → ℂ := fun x => ∑ i, (b i : ℂ) * x i with hdot
  have hdadd : ∀ x y, dot (x + y) = dot x + dot y := fun x y => by
    simp only [hdot, Pi.add_apply, mul_add, Finset.sum_add_distrib]
  have hdsmul : ∀ (a : ℂ) x, dot (a • x) = a * dot x := fun a x => by
    simp only [hdot, Pi.smul_apply, smul_eq_mul, Finset.mul_sum]
    exact Finset.sum_congr rfl fun i _ => by ring
  have hdn : ∀ x, ‖dot x‖ ≤ q * ‖x‖ := fun x => by
    refine (norm_sum_le _ _).trans ?_
    refine le_trans ?_ (mul_le_mul_of_nonneg_right hqb (norm_nonneg x))
    rw [Finset.sum_mul]
    refine Finset.sum_le_sum fun i _ => ?_
    rw [norm_mul, Complex.norm_real, Real.norm_eq_abs]
    exact mul_le_mul_of_nonneg_left (norm_le_pi_norm x i) (abs_nonneg _)
  have hpow : ∀ k (y : Fin M → ℂ), ‖(cmat A ^ k) *ᵥ y‖ ≤ q ^ k * ‖y‖ := by
    intro k
    induction k with
    | zero => intro y; simp
    | succ k ih =>
      intro y
      rw [pow_succ', ← Matrix.mulVec_mulVec, pow_succ', mul_assoc]
      have h1 := mulVec_norm_le (A := A) (a := q) (z := 1) (fun i => by simpa using hq i) hq0 ((cmat A ^ k) *ᵥ y)
      rw [one_smul] at h1
      exact h1.trans (mul_le_mul_of_nonneg_left (ih y) hq0)
  have hmom : ∀ k, k < p → ‖dot ((cmat A ^ k) *ᵥ fun _ => 1) - 1 / (k + 1).factorial‖ ≤ tol := fun k hk => by
    have h1 := h k hk
    have e : cmat A ^ k = (A ^ k).map Complex.ofReal := ((Complex.ofRealHom.mapMatrix (m := Fin M)).map_pow A k).symm
    have e2 : ((b ⬝ᵥ ((A ^ k) *ᵥ fun _ => 1) : ℝ) : ℂ) = dot ((cmat A ^ k) *ᵥ fun _ => 1) := by
      rw [e]
      simp [hdot, dotProduct, Matrix.mulVec]
    rw [← e2, ← Real.norm_eq_abs, ← Complex.norm_real] at *
    push_cast at h1
    exact h1
  obtain ⟨ε, hε⟩ : ∃ ε : ℕ → ℂ, ∀ k, ε k = dot ((cmat A ^ k) *ᵥ fun _ => 1) - 1 / (k + 1).factorial := ⟨_, fun _ => rfl⟩
  simp only [← hε] at hmom
  have hexp : ∀ m, m ≤ p → 1 + z * dot X = ∑ k ∈ Finset.range (m + 1), z ^ k / k.factorial + z ^ (m + 1) * dot ((cmat A ^ m) *ᵥ X) +
      ∑ k ∈ Finset.range m, z ^ (k + 1) * ε k := by
    intro m
    induction m with
    | zero => intro _; simp
    | succ m ih =>
      intro hm
      rw [ih (by omega), Finset.sum_range_succ (fun k => z ^ k / (k.factorial : ℂ)) (m + 1),
        Finset.sum_range_succ (fun k => z ^ (k + 1) * ε k) m, hε m]
      have e1 : dot ((cmat A ^ m) *ᵥ X) = dot ((cmat A ^ m) *ᵥ fun _ => 1) + z * dot ((cmat A ^ (m + 1)) *ᵥ X) := by
        conv_lhs => rw [hXs]
        rw [Matrix.mulVec_add, hdadd, Matrix.mulVec_smul, hdsmul, Matrix.mulVec_mulVec, ← pow_succ]
      rw [e1]
      ring
  have hR : stabilityFunction A b z = 1 + z * dot X := rfl
  rw [hR, hexp p le_rfl]
  have hb := Complex.exp_bound' (x := z) (n := p + 1) (by
    rw [div_le_iff₀ (by positivity)]
    have : (2:ℝ) ≤ ((p + 1).succ : ℕ) := by exact_mod_cast (by omega : 2 ≤ (p + 1).succ)
    linarith)
  rw [← norm_neg] at hb
  set D := ∑ k ∈ Finset.range p, z ^ (k + 1) * ε k with hD
  have hDn : ‖D‖ ≤ p * tol * ‖z‖ := by
    refine (norm_sum_le_of_le _ (f := fun k => z ^ (k + 1) * ε k)
      (n := fun _ => tol * ‖z‖) fun k hk => ?_).trans (le_of_eq ?_)
    · have h1 := hmom k (Finset.mem_range.1 hk)
      have h2 : ‖z‖ ^ (k + 1) ≤ ‖z‖ := pow_le_of_le_one (norm_nonneg z) hz1 (by omega)
      rw [norm_mul, norm_pow, mul_comm tol]
      exact mul_le_mul h2 h1 (norm_nonneg _) (norm_nonneg _)
    · rw [Finset.sum_const, Finset.card_range, nsmul_eq_mul]
      ring
  have e3 : ∑ k ∈ Finset.range (p + 1), z ^ k / k.factorial + z ^ (p + 1) * dot ((cmat A ^ p) *ᵥ X) + D - Complex.exp z =
      z ^ (p + 1) * dot ((cmat A ^ p) *ᵥ X) + -(Complex.exp z - ∑ k ∈ Finset.range (p + 1), z ^ k / k.factorial) + D := by ring
  rw [e3]
  refine (norm_add_le _ _).trans (add_le_add ((norm_add_le _ _).trans (add_le_add ?_ (hb.trans (le_of_eq (by ring))))) hDn)
  rw [norm_mul, norm_pow]
  have h1 := (hdn ((cmat A ^ p) *ᵥ X)).trans (mul_le_mul_of_nonneg_left ((hpow p X).trans (mul_le_mul_of_nonneg_left hXn (by positivity))) hq0)
  refine (mul_le_mul_of_nonneg_left h1 (by positivity)).trans (le_of_eq ?_)
  rw [mul_pow, pow_succ q p]
  ring

/-- Rows of absolute values, with `√d ≤ 2`. -/
def absRow {d : ℕ} (l : List (Quad d)) : ℚ := (l.map fun x => |x.a| + 2 * |x.b|).sum

theorem absRow_sound {d : ℕ} (hd : d = 2 ∨ d = 3) (l : List (Quad d)) (n : ℕ) (hl : l.length = n) :
    ∑ j : Fin n, |(l.getD j 0).toReal| ≤ absRow l := by
  subst hl
  have h1 : ∀ x : Quad d, |x.toReal| ≤ ((|x.a| + 2 * |x.b| : ℚ) : ℝ) := fun x => by
    have hs : Real.sqrt d ≤ 2 := by
      rw [Real.sqrt_le_left (by norm_num)]
      rcases hd with rfl | rfl <;> norm_num
    unfold Quad.toReal
    refine (abs_add_le _ _).trans ?_
    rw [abs_mul, abs_of_nonneg (Real.sqrt_nonneg _)]
    push_cast
    have := mul_le_mul_of_nonneg_left hs (abs_nonneg (x.b : ℝ))
    linarith
  have h2 : (absRow l : ℝ) = ∑ j : Fin l.length, ((|(l.getD j 0).a| + 2 * |(l.getD j 0).b| : ℚ) : ℝ) := by
    rw [← Rat.cast_sum]
    congr 1
    rw [absRow, ← Fin.sum_univ_getElem]
    refine Fintype.sum_equiv (finCongr (by simp)) _ _ fun j => ?_
    have hj : (j : ℕ) < l.length := by simpa using j.isLt
    simp [List.getD, hj]
  rw [h2]
  exact Finset.sum_le_sum fun j _ => h1 _

theorem tables_absRow : ∀ T ∈ Tables.rkSchemes, (absRow T.b ≤ 32 ∧ ∀ r ∈ T.A, absRow r ≤ 32) ∧
    (tableAccuracy T.name = 0 → absRow T.b ≤ 18 ∧ ∀ r ∈ T.A, absRow r ≤ 18) := by
  have : (Tables.rkSchemes.all fun T => (T.b :: T.A).all fun r => decide (absRow r ≤ 32) &&
      (decide (tableAccuracy T.name ≠ 0) || decide (absRow r ≤ 18))) = true := by
    decide +kernel
  intro T hT
  have := List.all_eq_true.mp this T hT
  simp only [List.all_cons, Bool.and_eq_true, Bool.or_eq_true, decide_eq_true_eq, List.all_eq_true] at this
  exact ⟨⟨this.1.1, fun r hr => (this.2 r hr).1⟩, fun h0 => ⟨this.1.2.resolve_left (not_not.2 h0),
    fun r hr => (this.2 r hr).2.resolve_left (not_not.2 h0)⟩⟩

/-- C102: the rows and the weights of every registered table sum to at most 32 in absolute value (18 for the exact tables). -/
theorem C102_tables_size (T : RKTable) (hT : T ∈ Tables.rkSchemes) :
    ((∀ i, ∑ j, |T.toRK.A i j| ≤ 32) ∧ ∑ j, |T.toRK.b j| ≤ 32) ∧
    (tableAccuracy T.name = 0 → (∀ i, ∑ j, |T.toRK.A i j| ≤ 18) ∧ ∑ j, |T.toRK.b j| ≤ 18) := by
  obtain ⟨hd, hs, -, -⟩ := tables_shape T hT
  simp only [RKTable.shapesOk, Bool.and_eq_true, decide_eq_true_eq, List.all_eq_true] at hs
  have key : ∀ B : ℚ, (absRow T.b ≤ B ∧ ∀ r ∈ T.A, absRow r ≤ B) → (∀ i, ∑ j, |T.toRK.A i j| ≤ B) ∧ ∑ j, |T.toRK.b j| ≤ B := fun B h => by
    refine ⟨fun i => ?_, ?_⟩
    · have hA : (i:ℕ) < T.A.length := by rw [hs.1.2]; exact i.isLt
      have hm : T.A.getD i [] ∈ T.A := by rw [getD_of_lt _ _ hA]; exact List.getElem_mem hA
      exact (absRow_sound hd (T.A.getD i []) T.c.length (hs.2 _ hm)).trans (by exact_mod_cast h.2 _ hm)
    · exact (absRow_sound hd T.b T.c.length hs.1.1).trans (by exact_mod_cast h.1)
  obtain ⟨h1, h2⟩ := tables_absRow T hT
  exact ⟨by simpa using key 32 h1, fun h0 => by simpa using key 18 (h2 h0)⟩

/-- C102: every registered table, with explicit constants: `p` is the declared order, `q` bounds the rows and the weights (`q = 32` always does). -/
theorem C102_tables (T : RKTable) (hT : T ∈ Tables.rkSchemes) (q : ℝ)
    (hq : q = 32 ∨ (tableAccuracy T.name = 0 ∧ q = 18) ∨ ((∀ i, ∑ j, |T.toRK.A i j| ≤ q) ∧ ∑ j, |T.toRK.b j| ≤ q))
    (lam u0 : ℂ) (tEnd : ℝ) (n : ℕ) (hn : 0 < n) (hz : ‖lam * (tEnd / n : ℝ)‖ * q ≤ 1 / 2)
    (hz1 : ‖lam * (tEnd / n : ℝ)‖ ≤ 1) (a A L : ℝ) (ha : a = Real.exp (lam.re * (tEnd / n))) (hA1 : 1 ≤ A) (hA : a ≤ A)
    (hL : L = methodError ‖lam * (tEnd / n : ℝ)‖ q T.order + T.order * tableAccuracy T.name * ‖lam * (tEnd / n : ℝ)‖) :
    ∃ l e, T.toRK.toQGenerator.solveDahlquist lam u0 tEnd n = .ok l ∧ l.length = n + 1 ∧
      (∀ i (hi : i < l.length), ‖l[i] - u0 * Complex.exp (lam * (i * (tEnd / n) : ℝ))‖ ≤ ((a + L) ^ i - a ^ i) * ‖u0‖) ∧
      T.toRK.toQGenerator.errorDahlquist lam u0 tEnd n = .ok e ∧ e ≤ ((A + L) ^ n - A ^ n) * ‖u0‖ := by
  have hq' : (∀ i, ∑ j, |T.toRK.A i j| ≤ q) ∧ ∑ j, |T.toRK.b j| ≤ q := by
    obtain ⟨h1, h2⟩ := C102_tables_size T hT
    rcases hq with rfl | ⟨h0, rfl⟩ | h
    · exact h1
    · exact h2 h0
    · exact h
  obtain ⟨hdet, hstep⟩ := C102_method_tol T.toRK.A T.toRK.b T.order _ (C32_linear_conditions T hT) q hq'.1 hq'.2 _ hz hz1
  exact solve_exact T.toRK.toQGenerator lam u0 tEnd n hn hdet (hL ▸ hstep) a A ha hA1 hA

/-- Instance: a hundred steps of RK4 for `u' = -u`. -/
example : ∃ l e, Tables.tRK4.toRK.toQGenerator.solveDahlquist (-1) 1 1 (100 : ℕ) = .ok l ∧ l.length = 100 + 1 ∧
    Tables.tRK4.toRK.toQGenerator.errorDahlquist (-1) 1 1 (100 : ℕ) = .ok e ∧ e ≤ (1 + 1 / 10 ^ 3) ^ 100 - 1 := by
  have hz : ‖(-1 : ℂ) * ((1 : ℝ) / (100 : ℕ) : ℝ)‖ = 1 / 100 := by
    rw [norm_mul, norm_neg, norm_one, Complex.norm_real]
    norm_num
  have key : ∀ x y : ℝ, 0 ≤ x → x ≤ y → ∀ n : ℕ, ((1 + x) ^ n - 1 ^ n) * ‖(1 : ℂ)‖ ≤ (1 + y) ^ n - 1 := fun x y hx hxy n => by
    rw [norm_one, mul_one, one_pow]
    exact sub_le_sub_right (pow_le_pow_left₀ (by linarith) (by linarith) _) _
  have ho : Tables.tRK4.order = 4 := rfl
  have ha : tableAccuracy Tables.tRK4.name = 0 := rfl
  obtain ⟨l, e, hl, hlen, -, he, hle⟩ := C102_tables Tables.tRK4 (by simp [Tables.rkSchemes]) 18 (Or.inr (Or.inl ⟨ha, rfl⟩)) (-1) 1 1 100
    (by norm_num) (by rw [hz]; norm_num) (by rw [hz]; norm_num) _ 1 _ rfl le_rfl (by rw [Real.exp_le_one_iff]; norm_num) rfl
  refine ⟨l, e, hl, hlen, he, hle.trans (key _ _ ?_ ?_ 100)⟩
  · rw [hz, ha, Rat.cast_zero, mul_zero, zero_mul, add_zero]
    exact methodError_nonneg (by norm_num) (by norm_num) _
  · rw [hz, ha, ho, Rat.cast_zero, mul_zero, zero_mul, add_zero, methodError]
    norm_num [Nat.factorial]

/-- Instance of `C102_method_tol` and `C102_tables_size`: a table with rounded coefficients. -/
example : (1 - (1 / 100 : ℂ) • Tables.tARK548L2SAERK.toRK.A.map Complex.ofReal).det ≠ 0 := by
  obtain ⟨⟨h1, h2⟩, -⟩ := C102_tables_size Tables.tARK548L2SAERK (by simp [Tables.rkSchemes])
  have hz : ‖(1 / 100 : ℂ)‖ = 1 / 100 := by simp
  exact (C102_method_tol _ _ _ _ (C32_linear_conditions Tables.tARK548L2SAERK (by simp [Tables.rkSchemes])) 32 h1 h2 (1 / 100)
    (by rw [hz]; norm_num) (by rw [hz]; norm_num)).1

end QMat
