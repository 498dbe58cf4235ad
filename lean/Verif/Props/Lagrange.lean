import Verif.Lemmas.Deriv
import Verif.Spec.Poly
import Mathlib.Data.Fin.VecNotation
import Mathlib.Tactic.FinCases

/-!
# Properties C01, C02, C03, C07, C08, C09, C10, C11: `LagrangeApproximation`
-/

namespace QMat

open Matrix Polynomial LagrangeApproximation

/-- The documented values of the options of `LagrangeApproximation`. -/
structure ValidOptions (nUnique : ℕ) (weightComputation scaleRef duplicates : String) : Prop where
  wc : weightComputation = "AUTO" ∨ weightComputation = "FAST" ∨ weightComputation = "STABLE" ∨
    weightComputation = "CHEBFUN"
  sr : scaleRef = "MAX" ∨ scaleRef = "ZERO"
  dupl : duplicates = "USE_LEFT" ∨ duplicates = "USE_RIGHT"
  /-- CHEBFUN divides by `max - min` of the points -/
  cheb : weightComputation = "CHEBFUN" → 2 ≤ nUnique

theorem logScaleWeights_total {m : ℕ} (hm : 0 < m) {sr : String} (h : sr = "MAX" ∨ sr = "ZERO")
    (x : Fin m → ℝ) : ∃ w, logScaleWeights sr x = .ok w := by
  unfold logScaleWeights
  simp only [bind, Except.bind, pure, Except.pure]
  rcases h with rfl | rfl
  · obtain ⟨s, hs⟩ := npMax_eq_ok hm (fun i => -∑ j, Real.log |wDiffs x i j|)
    simp [hs, -Real.log_abs]
  · obtain ⟨s, hs⟩ := npArgmin_eq_ok hm (fun i => |x i|)
    simp [hs]

theorem chebfunWeights_total {m : ℕ} (hm : 0 < m) (x : Fin m → ℝ) :
    ∃ w, chebfunWeights x = .ok w := by
  unfold chebfunWeights
  simp only [bind, Except.bind, pure, Except.pure]
  obtain ⟨a, ha⟩ := npMax_eq_ok hm x
  obtain ⟨b, hb⟩ := npMin_eq_ok hm x
  simp only [ha, hb]
  obtain ⟨c, hc⟩ := npMax_eq_ok hm fun i => |((∏ j, npSign (wDiffs x i j * (4 / (a - b)))) *
    Real.exp (∑ j, Real.log |wDiffs x i j * (4 / (a - b))|))⁻¹|
  simp only [hc]
  exact ⟨_, rfl⟩

/-- C01 (totality): with documented options and at least one point the constructor never raises. -/
theorem C01_constructor_total {n : ℕ} (hn : 0 < n) (points : Fin n → ℝ)
    (wc : String) (sw : Bool) (sr dupl : String)
    (hopt : ValidOptions (npUniqueSize points) wc sr dupl) :
    ∃ L, LagrangeApproximation.new points wc sw sr dupl = .ok L := by
  have hm := npUniqueSize_pos points hn
  have hw : ∃ w, computeWeights wc sr (npUnique points) = .ok w := by
    unfold computeWeights
    rcases hopt.wc with rfl | rfl | rfl | rfl
    · simp only [if_true]
      split_ifs
      · exact logScaleWeights_total hm hopt.sr _
      · exact ⟨_, rfl⟩
    · simp
    · simpa using logScaleWeights_total hm hopt.sr _
    · simpa using chebfunWeights_total hm _
  obtain ⟨w, hw⟩ := hw
  have hs : ∃ w', scaleW sw w = .ok w' := by
    unfold scaleW
    cases sw
    · simp
    · obtain ⟨s, hs⟩ := npMax_eq_ok hm fun i => |w i|
      simp [bind, Except.bind, pure, Except.pure, hs]
  obtain ⟨w', hs⟩ := hs
  unfold LagrangeApproximation.new
  simp only [bind, Except.bind, pure, Except.pure, hw, hs, checkFValues]
  rcases hopt.dupl with rfl | rfl
  · split_ifs <;> simp_all
  · split_ifs <;> simp_all

example : ∃ L, LagrangeApproximation.new ![(0:ℝ), 1/2, 1] "STABLE" true "ZERO" = .ok L :=
  C01_constructor_total (by norm_num) _ _ _ _ _ ⟨by simp, by simp, by simp, by simp⟩

/-- C01: for strictly increasing points the interpolation matrix reproduces every polynomial of
degree `< n` at every time, whatever the options of the constructor. -/
theorem C01_interpolation_exact {n r : ℕ} (points : Fin n → ℝ) (hinc : StrictMono points)
    (wc : String) (sw : Bool) (sr dupl : String) (fv) (hcheb : wc = "CHEBFUN" → 2 ≤ n)
    (L : LagrangeApproximation n) (hL : LagrangeApproximation.new points wc sw sr dupl fv = .ok L)
    (times : Fin r → ℝ) (p : ℝ[X]) (hdeg : p.degree < n) :
    L.getInterpolationMatrix times *ᵥ Spec.vals p points = Spec.vals p times := by
  obtain ⟨hS, -, hWF⟩ := new_spec hL
  have hn := (npUniqueSize_eq_iff points).mpr hinc.injective
  have hWF := hWF (Or.inl hinc) (by rwa [hn])
  obtain ⟨rep, hrep⟩ := hS.exists_rep
  funext i
  rw [getInterpolationMatrix, hrep.mulVec_rep hWF.inj]
  have : ∀ u, Spec.vals p points (rep u) = p.eval (L.uniquePoints u) := fun u => by
    rw [Spec.vals, ← hrep.points_rep, hS.points_eq]
  simp only [this]
  exact mulVec_eval hWF times p (by rw [hS.nUnique, hn]; exact hdeg) i

theorem strictMono_ex : StrictMono ![(0:ℝ), 1/2, 1] := by
  refine Fin.strictMono_iff_lt_succ.mpr fun i => ?_
  fin_cases i <;> simp
  norm_num

/-- A concrete instance of C01: three points, the polynomial `X^2`, a time on and one off a point. -/
example : ∃ L, LagrangeApproximation.new ![(0:ℝ), 1/2, 1] "CHEBFUN" = .ok L ∧
    L.getInterpolationMatrix ![1/2, 7] *ᵥ Spec.vals (X ^ 2 : ℝ[X]) ![(0:ℝ), 1/2, 1] =
      Spec.vals (X ^ 2 : ℝ[X]) ![1/2, 7] := by
  have hn := (npUniqueSize_eq_iff ![(0:ℝ), 1/2, 1]).mpr strictMono_ex.injective
  obtain ⟨L, hL⟩ := C01_constructor_total (n := 3) (by norm_num) ![(0:ℝ), 1/2, 1] "CHEBFUN" false
    "MAX" "USE_LEFT" ⟨by simp, by simp, by simp, fun _ => by omega⟩
  exact ⟨L, hL, C01_interpolation_exact _ strictMono_ex _ _ _ _ _ (fun _ => by norm_num) L hL _ _
    (by rw [degree_X_pow]; exact_mod_cast (by norm_num : 2 < 3))⟩

/-- General form behind C02, C09, C10: sorted points, or any points with duplicates. -/
theorem interpolation_exact_general {n r : ℕ} (points : Fin n → ℝ)
    (hpts : StrictMono points ∨ ¬ Function.Injective points)
    (wc : String) (sw : Bool) (sr dupl : String) (fv)
    (hcheb : wc = "CHEBFUN" → 2 ≤ npUniqueSize points)
    (L : LagrangeApproximation n) (hL : LagrangeApproximation.new points wc sw sr dupl fv = .ok L)
    (times : Fin r → ℝ) (p : ℝ[X]) (hdeg : p.degree < npUniqueSize points) :
    L.getInterpolationMatrix times *ᵥ Spec.vals p points = Spec.vals p times := by
  obtain ⟨hS, -, hWF⟩ := new_spec hL
  have hWF := hWF hpts hcheb
  obtain ⟨rep, hrep⟩ := hS.exists_rep
  funext i
  rw [getInterpolationMatrix, hrep.mulVec_rep hWF.inj]
  have : ∀ u, Spec.vals p points (rep u) = p.eval (L.uniquePoints u) := fun u => by
    rw [Spec.vals, ← hrep.points_rep, hS.points_eq]
  simp only [this]
  exact mulVec_eval hWF times p (by rw [hS.nUnique]; exact hdeg) i

/-- C02: a row whose time is the `j`-th point is the `j`-th unit vector. -/
theorem C02_interpolation_cardinal {n r : ℕ} (points : Fin n → ℝ) (hinc : StrictMono points)
    (wc : String) (sw : Bool) (sr dupl : String) (fv) (hcheb : wc = "CHEBFUN" → 2 ≤ n)
    (L : LagrangeApproximation n) (hL : LagrangeApproximation.new points wc sw sr dupl fv = .ok L)
    (times : Fin r → ℝ) (i : Fin r) (j : Fin n) (htime : times i = points j) (k : Fin n) :
    L.getInterpolationMatrix times i k = if k = j then 1 else 0 := by
  obtain ⟨hS, -, hWF⟩ := new_spec hL
  have hn := (npUniqueSize_eq_iff points).mpr hinc.injective
  have hWF := hWF (Or.inl hinc) (by rwa [hn])
  obtain ⟨h, hu, hrep⟩ := hS.noDup hinc.injective
  have e : L.getInterpolationMatrix times i k =
      L.interpolationMatrixU times i (Fin.cast h.symm k) := by
    rw [getInterpolationMatrix, ← hrep.entry_rep (L.interpolationMatrixU times)]; simp
  rw [e, interpolationMatrixU_eq_basis hWF, htime, ← hu j]
  split_ifs with hk
  · subst hk
    exact Lagrange.eval_basis_self hWF.inj.injOn (Finset.mem_univ _)
  · exact Lagrange.eval_basis_of_ne (fun hh => hk (by simpa using hh)) (Finset.mem_univ _)

/-- C02: every row of the interpolation matrix sums to one (sorted points, or duplicates). -/
theorem C02_interpolation_rowsum {n r : ℕ} (hn : 0 < n) (points : Fin n → ℝ)
    (hpts : StrictMono points ∨ ¬ Function.Injective points)
    (wc : String) (sw : Bool) (sr dupl : String) (fv)
    (hcheb : wc = "CHEBFUN" → 2 ≤ npUniqueSize points)
    (L : LagrangeApproximation n) (hL : LagrangeApproximation.new points wc sw sr dupl fv = .ok L)
    (times : Fin r → ℝ) (i : Fin r) :
    ∑ j, L.getInterpolationMatrix times i j = 1 := by
  have h := congrFun (interpolation_exact_general points hpts wc sw sr dupl fv hcheb L hL times 1
    (by rw [degree_one]; exact_mod_cast npUniqueSize_pos points hn)) i
  simpa [Matrix.mulVec, dotProduct, Spec.vals] using h

example : ∃ L, LagrangeApproximation.new ![(0:ℝ), 1/2, 1] = .ok L ∧
    (∀ k, L.getInterpolationMatrix ![1/2, 7] 0 k = if k = 1 then 1 else 0) ∧
    ∑ j, L.getInterpolationMatrix ![1/2, 7] 1 j = 1 := by
  obtain ⟨L, hL⟩ := C01_constructor_total (n := 3) (by norm_num) ![(0:ℝ), 1/2, 1] "AUTO" false
    "MAX" "USE_LEFT" ⟨by simp, by simp, by simp, by simp⟩
  exact ⟨L, hL, fun k => C02_interpolation_cardinal _ strictMono_ex _ _ _ _ _ (by simp) L hL
    ![1/2, 7] 0 1 rfl k, C02_interpolation_rowsum (by norm_num) _ (Or.inl strictMono_ex) _ _ _ _ _ (by simp) L hL
    _ _⟩

/-- C03: two approximations built on the same increasing points with any two sets of options have
non-zero weights that differ by one common non-zero factor, the same interpolation matrices and the
same derivative matrices. -/
theorem C03_weight_options_interchangeable {n r : ℕ} (points : Fin n → ℝ)
    (hinc : StrictMono points)
    (wc wc' : String) (sw sw' : Bool) (sr sr' dupl dupl' : String) (fv fv')
    (hcheb : wc = "CHEBFUN" ∨ wc' = "CHEBFUN" → 2 ≤ n) (L L' : LagrangeApproximation n)
    (hL : LagrangeApproximation.new points wc sw sr dupl fv = .ok L)
    (hL' : LagrangeApproximation.new points wc' sw' sr' dupl' fv' = .ok L') (times : Fin r → ℝ) :
    ∃ (h : L.nUniquePoints = n) (h' : L'.nUniquePoints = n) (c : ℝ),
      c ≠ 0 ∧ (∀ i, L.weights (Fin.cast h.symm i) ≠ 0) ∧
      (∀ i, L'.weights (Fin.cast h'.symm i) = c * L.weights (Fin.cast h.symm i)) ∧
      L.getInterpolationMatrix times = L'.getInterpolationMatrix times ∧
      (∀ i j, L.handleDuplicates L.derivativeMatrix1U (Fin.cast h.symm i) j =
        L'.handleDuplicates L'.derivativeMatrix1U (Fin.cast h'.symm i) j) ∧
      (∀ i j, L.handleDuplicates L.derivativeMatrix2U (Fin.cast h.symm i) j =
        L'.handleDuplicates L'.derivativeMatrix2U (Fin.cast h'.symm i) j) := by
  obtain ⟨hS, -, hWF0⟩ := new_spec hL
  obtain ⟨hS', -, hWF0'⟩ := new_spec hL'
  have hn := (npUniqueSize_eq_iff points).mpr hinc.injective
  have hWF := hWF0 (Or.inl hinc) (fun e => by rw [hn]; exact hcheb (Or.inl e))
  have hWF' := hWF0' (Or.inl hinc) (fun e => by rw [hn]; exact hcheb (Or.inr e))
  obtain ⟨h, hu, hrep⟩ := hS.noDup hinc.injective
  obtain ⟨h', hu', hrep'⟩ := hS'.noDup hinc.injective
  clear hS hS' hL hL' hWF0 hWF0'
  obtain ⟨pts, m, up, w, d, f⟩ := L
  obtain ⟨pts', m', up', w', d', f'⟩ := L'
  dsimp only at h h' hu hu' ⊢
  subst h
  subst h'
  have e : up = points := funext fun i => hu i
  have e' : up' = points := funext fun i => hu' i
  subst e
  subst e'
  obtain ⟨c, hc, hw⟩ := hWF.bary
  obtain ⟨c', hc', hw'⟩ := hWF'.bary
  refine ⟨rfl, rfl, c' / c, div_ne_zero hc' hc, fun i => hWF.bary.weights_ne_zero hWF.inj _,
    fun i => ?_, ?_, fun i j => ?_, fun i j => ?_⟩
  · have a := hw i
    have b := hw' i
    dsimp only at a b
    simp only [Fin.cast_eq_self]
    rw [a, b]
    field_simp
  · ext i j
    have a := hrep.entry_rep (interpolationMatrixU _ times) i j
    have b := hrep'.entry_rep (interpolationMatrixU _ times) i j
    simp only [Fin.cast_eq_self] at a b
    rw [getInterpolationMatrix, getInterpolationMatrix, a, b, interpolationMatrixU_eq_basis hWF,
      interpolationMatrixU_eq_basis hWF']
  · have a := hrep.entry_rep (derivativeMatrix1U _) i j
    have b := hrep'.entry_rep (derivativeMatrix1U _) i j
    simp only [Fin.cast_eq_self] at a b
    simp only [Fin.cast_eq_self]
    rw [a, b, derivativeMatrix1U_eq hWF, derivativeMatrix1U_eq hWF']
  · have a := hrep.entry_rep (derivativeMatrix2U _) i j
    have b := hrep'.entry_rep (derivativeMatrix2U _) i j
    simp only [Fin.cast_eq_self] at a b
    simp only [Fin.cast_eq_self]
    rw [a, b, derivativeMatrix2U_eq hWF, derivativeMatrix2U_eq hWF']

example : ∃ L L', LagrangeApproximation.new ![(0:ℝ), 1/2, 1] "CHEBFUN" = .ok L ∧
    LagrangeApproximation.new ![(0:ℝ), 1/2, 1] "STABLE" true "ZERO" = .ok L' ∧
    L.getInterpolationMatrix ![1/3] = L'.getInterpolationMatrix ![1/3] := by
  have hn := (npUniqueSize_eq_iff ![(0:ℝ), 1/2, 1]).mpr strictMono_ex.injective
  obtain ⟨L, hL⟩ := C01_constructor_total (n := 3) (by norm_num) ![(0:ℝ), 1/2, 1] "CHEBFUN" false
    "MAX" "USE_LEFT" ⟨by simp, by simp, by simp, fun _ => by omega⟩
  obtain ⟨L', hL'⟩ := C01_constructor_total (n := 3) (by norm_num) ![(0:ℝ), 1/2, 1] "STABLE" true
    "ZERO" "USE_LEFT" ⟨by simp, by simp, by simp, by simp⟩
  obtain ⟨_, _, _, _, _, _, h, _⟩ := C03_weight_options_interchangeable _ strictMono_ex _ _ _ _ _ _
    _ _ _ _ (fun _ => by norm_num) L L' hL hL' ![1/3]
  exact ⟨L, L', hL, hL', h⟩

/-- C07: the first and second derivative matrices map the values of a polynomial of degree `< n` to
the values of its derivatives; `"ALL"` returns the same two matrices; any other order raises. -/
theorem C07_derivative_exact {n : ℕ} (points : Fin n → ℝ) (hinc : StrictMono points)
    (wc : String) (sw : Bool) (sr dupl : String) (fv) (hcheb : wc = "CHEBFUN" → 2 ≤ n)
    (L : LagrangeApproximation n)
    (hL : LagrangeApproximation.new points wc sw sr dupl fv = .ok L) :
    ∃ (h : L.nUniquePoints = n) (D1 D2 : Matrix (Fin L.nUniquePoints) (Fin n) ℝ),
      L.getDerivativeMatrix (.int 1) = .ok (.single D1) ∧
      L.getDerivativeMatrix (.int 2) = .ok (.single D2) ∧
      L.getDerivativeMatrix (.str "ALL") = .ok (.pair D1 D2) ∧
      (∀ p : ℝ[X], p.degree < n → ∀ i,
        (D1 *ᵥ Spec.vals p points) i = (derivative p).eval (points (Fin.cast h i)) ∧
        (D2 *ᵥ Spec.vals p points) i = (derivative (derivative p)).eval (points (Fin.cast h i))) ∧
      (∀ i, ∑ j, D1 i j = 0 ∧ ∑ j, D2 i j = 0) := by
  obtain ⟨hS, -, hWF⟩ := new_spec hL
  have hn := (npUniqueSize_eq_iff points).mpr hinc.injective
  have hWF := hWF (Or.inl hinc) (by rwa [hn])
  obtain ⟨h, hu, hrep⟩ := hS.noDup hinc.injective
  have hpt : ∀ i, points (Fin.cast h i) = L.uniquePoints i := fun i => by rw [← hu]; simp
  have main : ∀ p : ℝ[X], p.degree < n → ∀ i,
      (L.handleDuplicates L.derivativeMatrix1U *ᵥ Spec.vals p points) i =
        (derivative p).eval (points (Fin.cast h i)) ∧
      (L.handleDuplicates L.derivativeMatrix2U *ᵥ Spec.vals p points) i =
        (derivative (derivative p)).eval (points (Fin.cast h i)) := by
    intro p hp i
    rw [hrep.mulVec_rep hWF.inj, hrep.mulVec_rep hWF.inj]
    simp only [Spec.vals, hpt]
    have hp' : p.degree < L.nUniquePoints := by rw [h]; exact hp
    exact ⟨derivative1_exact hWF p hp' i, derivative2_exact hWF p hp' i⟩
  refine ⟨h, _, _, rfl, rfl, rfl, main, fun i => ?_⟩
  have h1 := main 1 (by rw [degree_one]; exact_mod_cast h ▸ i.pos) i
  simpa [Matrix.mulVec, dotProduct, Spec.vals] using h1

/-- C07: orders other than 1, 2 and "ALL" raise `NotImplementedError`. -/
theorem C07_derivative_order_error {n : ℕ} (L : LagrangeApproximation n) :
    (∀ k : ℤ, k ≠ 1 → k ≠ 2 → L.getDerivativeMatrix (.int k) = .error .notImplementedError) ∧
    (∀ s : String, s ≠ "ALL" → L.getDerivativeMatrix (.str s) = .error .notImplementedError) := by
  constructor
  · intro k h1 h2
    unfold getDerivativeMatrix
    split <;> simp_all
  · intro s hs
    unfold getDerivativeMatrix
    split <;> simp_all

/-- Instance: `order=3` and `order="BOTH"` are refused. -/
example {n : ℕ} (L : LagrangeApproximation n) : L.getDerivativeMatrix (.int 3) = .error .notImplementedError ∧
    L.getDerivativeMatrix (.str "BOTH") = .error .notImplementedError :=
  ⟨(C07_derivative_order_error L).1 3 (by norm_num) (by norm_num),
    (C07_derivative_order_error L).2 "BOTH" (by decide)⟩

/-- C08: the second derivative matrix is the square of the first one (row `i` of the product uses
the identification of the rows of `D1` with the points). -/
theorem C08_second_derivative_is_square {n : ℕ} (points : Fin n → ℝ) (hinc : StrictMono points)
    (wc : String) (sw : Bool) (sr dupl : String) (fv) (hcheb : wc = "CHEBFUN" → 2 ≤ n)
    (L : LagrangeApproximation n)
    (hL : LagrangeApproximation.new points wc sw sr dupl fv = .ok L) :
    ∃ (h : L.nUniquePoints = n) (D1 D2 : Matrix (Fin L.nUniquePoints) (Fin n) ℝ),
      L.getDerivativeMatrix (.str "ALL") = .ok (.pair D1 D2) ∧
      D2 = D1 * (D1.submatrix (Fin.cast h.symm) id) := by
  obtain ⟨hS, -, hWF⟩ := new_spec hL
  have hn := (npUniqueSize_eq_iff points).mpr hinc.injective
  have hWF' := hWF (Or.inl hinc) (by rwa [hn])
  obtain ⟨h, hu, hrep⟩ := hS.noDup hinc.injective
  have hpt : ∀ i, points (Fin.cast h i) = L.uniquePoints i := fun i => by rw [← hu]; simp
  refine ⟨h, _, _, rfl, ?_⟩
  ext i j
  have hj : j = Fin.cast h (Fin.cast h.symm j) := by simp
  set u := Fin.cast h.symm j
  have e2 : L.handleDuplicates L.derivativeMatrix2U i j = L.derivativeMatrix2U i u := by
    rw [hj]; exact hrep.entry_rep _ i u
  have e1 : ∀ k, L.handleDuplicates L.derivativeMatrix1U k j = L.derivativeMatrix1U k u := by
    intro k; rw [hj]; exact hrep.entry_rep _ k u
  rw [e2, derivativeMatrix2U_eq hWF']
  have hdeg : (derivative (Lagrange.basis Finset.univ L.uniquePoints u)).degree <
      L.nUniquePoints := by
    refine lt_of_le_of_lt (degree_derivative_le) ?_
    rw [Lagrange.degree_basis hWF'.inj.injOn (Finset.mem_univ _)]
    have := u.pos
    rw [Finset.card_univ, Fintype.card_fin]
    exact_mod_cast Nat.sub_lt this one_pos
  rw [← derivative1_exact hWF' _ hdeg i]
  have := hrep.mulVec_rep hWF'.inj L.derivativeMatrix1U
    (fun k => L.derivativeMatrix1U (Fin.cast h.symm k) u) i
  simp only [Fin.cast_cast, Fin.cast_eq_self] at this
  rw [Matrix.mul_apply]
  simp only [Matrix.submatrix_apply, id_eq, e1]
  change _ = (L.handleDuplicates L.derivativeMatrix1U *ᵥ
    (fun k => L.derivativeMatrix1U (Fin.cast h.symm k) u)) i
  rw [this]
  exact Finset.sum_congr rfl fun v _ => by rw [derivativeMatrix1U_eq hWF' v u]

example : ∃ L, LagrangeApproximation.new ![(0:ℝ), 1/2, 1] = .ok L ∧
    ∃ (h : L.nUniquePoints = 3) (D1 : Matrix (Fin L.nUniquePoints) (Fin 3) ℝ),
      L.getDerivativeMatrix (.int 1) = .ok (.single D1) ∧
      ∀ i, (D1 *ᵥ Spec.vals (X ^ 2 : ℝ[X]) ![(0:ℝ), 1/2, 1]) i =
        2 * ![(0:ℝ), 1/2, 1] (Fin.cast h i) := by
  obtain ⟨L, hL⟩ := C01_constructor_total (n := 3) (by norm_num) ![(0:ℝ), 1/2, 1] "AUTO" false
    "MAX" "USE_LEFT" ⟨by simp, by simp, by simp, by simp⟩
  obtain ⟨h, D1, D2, h1, -, -, hD, -⟩ := C07_derivative_exact _ strictMono_ex _ _ _ _ _ (by simp) L hL
  obtain ⟨_, _, _, _, _⟩ := C08_second_derivative_is_square _ strictMono_ex _ _ _ _ _ (by simp) L hL
  refine ⟨L, hL, h, D1, h1, fun i => ?_⟩
  rw [(hD (X ^ 2) (by rw [degree_X_pow]; exact_mod_cast (by norm_num : 2 < 3)) i).1]
  simp only [derivative_X_pow]
  simp

end QMat
