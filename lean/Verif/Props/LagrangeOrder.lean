import Verif.Props.LagrangeDup

/-!
# C10, exactly: when is the interpolation exact for points that are not sorted
-/

namespace QMat

open Matrix Polynomial LagrangeApproximation

/-- The weights stored for distinct points, in any order, are those of the sorted points. -/
theorem weights_unsorted {n : ℕ} {points q : Fin n → ℝ} (hinj : Function.Injective points) (hq : StrictMono q)
    (hr : Set.range q = Set.range points) {wc : String} {sw : Bool} {sr dupl : String} {fv}
    (hcheb : wc = "CHEBFUN" → 2 ≤ n)
    {L : LagrangeApproximation n} (h : LagrangeApproximation.new points wc sw sr dupl fv = .ok L)
    (hN : L.nUniquePoints = n) :
    ∃ c : ℝ, c ≠ 0 ∧ ∀ j : Fin n, L.weights (Fin.cast hN.symm j) = c * Lagrange.nodalWeight Finset.univ q j := by
  have hn := (npUniqueSize_eq_iff points).mpr hinj
  obtain ⟨hn', hqu⟩ := exists_cast_npUnique points q hq hr
  unfold LagrangeApproximation.new at h
  simp only [bind, Except.bind, pure, Except.pure, hn, dite_true] at h
  split at h
  · simp at h
  rename_i w hw
  split at h
  · simp at h
  rename_i w' hw'
  split at h
  · simp at h
  have hL := (Except.ok.inj h).symm
  subst hL
  obtain ⟨c, hc0, hc⟩ := isBary_scaleW (npUnique_strictMono points).injective
    (isBary_computeWeights (npUnique_strictMono points).injective (fun e => by rw [hn]; exact hcheb e) hw) hw'
  refine ⟨c, hc0, fun i => ?_⟩
  simp only
  rw [hc]
  congr 1
  unfold Lagrange.nodalWeight
  refine Finset.prod_bij (fun a _ => Fin.cast hn a) ?_ ?_ ?_ ?_
  · intro a ha
    simp only [Finset.mem_erase, Finset.mem_univ, and_true] at ha ⊢
    intro hh
    exact ha (by rw [← hh]; simp)
  · intro a _ b _ hab
    simpa using hab
  · intro b hb
    refine ⟨Fin.cast hn.symm b, ?_, by simp⟩
    simp only [Finset.mem_erase, Finset.mem_univ, and_true] at hb ⊢
    intro hh
    exact hb (by simpa using hh)
  · intro a _
    rw [hqu, hqu]
    simp

/-- C10, exactly: for distinct points in any order (`q` the same points sorted) the interpolation matrix reproduces
every polynomial of degree `< n` at every time if and only if the products `∏_{k≠j} (x_j - x_k)` of the points and
those of the sorted points are proportional, index by index. -/
theorem C10_exact_iff {n : ℕ} (hn : 0 < n) (points q : Fin n → ℝ) (hinj : Function.Injective points) (hq : StrictMono q)
    (hr : Set.range q = Set.range points) (wc : String) (sw : Bool) (sr dupl : String) (fv)
    (hcheb : wc = "CHEBFUN" → 2 ≤ n)
    (L : LagrangeApproximation n) (hL : LagrangeApproximation.new points wc sw sr dupl fv = .ok L) :
    (∀ (r : ℕ) (times : Fin r → ℝ) (p : ℝ[X]), p.degree < n →
      L.getInterpolationMatrix times *ᵥ Spec.vals p points = Spec.vals p times) ↔
    ∃ c : ℝ, ∀ j, ∏ k ∈ Finset.univ.erase j, (points j - points k) =
      c * ∏ k ∈ Finset.univ.erase j, (q j - q k) := by
  classical
  obtain ⟨hS, -, -⟩ := new_spec hL
  obtain ⟨hN, hu, hrep⟩ := hS.noDup hinj
  obtain ⟨c, hc0, hc⟩ := weights_unsorted hinj hq hr hcheb hL hN
  have hentry : ∀ {r : ℕ} (times : Fin r → ℝ) i k, L.getInterpolationMatrix times i k =
      L.interpolationMatrixU times i (Fin.cast hN.symm k) := fun times i k => by
    rw [getInterpolationMatrix, ← hrep.entry_rep (L.interpolationMatrixU times)]; simp
  have hprod : ∀ {x : Fin n → ℝ} (_ : Function.Injective x) j,
      ∏ k ∈ Finset.univ.erase j, (x j - x k) ≠ 0 := fun hx j =>
    Finset.prod_ne_zero_iff.mpr fun k hk => sub_ne_zero.mpr fun e => (Finset.ne_of_mem_erase hk) (hx e).symm
  have hnw : ∀ (x : Fin n → ℝ) j, Lagrange.nodalWeight Finset.univ x j =
      (∏ k ∈ Finset.univ.erase j, (x j - x k))⁻¹ := fun x j => by
    rw [Lagrange.nodalWeight, Finset.prod_inv_distrib]
  constructor
  · intro hex
    -- a time that is not a point
    obtain ⟨t, ht⟩ : ∃ t, t ∉ Set.range points := (Set.finite_range points).infinite_compl.nonempty
    have htne : ∀ j, t - points j ≠ 0 := fun j h => ht ⟨j, (sub_eq_zero.mp h).symm⟩
    set D := ∑ j', 1 / (t - L.uniquePoints j') * L.weights j' with hD
    have hrow : ∀ k, L.getInterpolationMatrix (fun _ : Fin 1 => t) 0 k =
        (Lagrange.basis Finset.univ points k).eval t := by
      intro k
      have := congrFun (hex 1 (fun _ => t) (Lagrange.basis Finset.univ points k) (by
        rw [Lagrange.degree_basis hinj.injOn (Finset.mem_univ k)]
        simp only [Finset.card_univ, Fintype.card_fin]
        exact_mod_cast (by omega : n - 1 < n))) 0
      rw [Matrix.mulVec, dotProduct, Finset.sum_eq_single k] at this
      · simpa [Spec.vals, Lagrange.eval_basis_self hinj.injOn (Finset.mem_univ k)] using this
      · intro j _ hj
        simp [Spec.vals, Lagrange.eval_basis_of_ne hj.symm (Finset.mem_univ j)]
      · simp
    have hval : ∀ k, L.getInterpolationMatrix (fun _ : Fin 1 => t) 0 k =
        1 / (t - points k) * L.weights (Fin.cast hN.symm k) / D := by
      intro k
      rw [hentry]
      have hno : ¬ ∃ j', t - L.uniquePoints j' = 0 := by
        rintro ⟨j', hj'⟩
        refine htne (Fin.cast hN j') ?_
        rw [← hu]
        simpa using hj'
      simp only [interpolationMatrixU, Matrix.of_apply, hno, if_false]
      rw [hu]
    have hω : (Lagrange.nodal Finset.univ points).eval t ≠ 0 := by
      rw [Lagrange.eval_nodal]
      exact Finset.prod_ne_zero_iff.mpr fun k _ => htne k
    have hDne : D ≠ 0 := by
      intro h0
      have h1 := hrow ⟨0, hn⟩
      rw [hval, h0, div_zero, Lagrange.eval_basis_not_at_node (Finset.mem_univ _) (sub_ne_zero.mp (htne _)), hnw] at h1
      have h2 := inv_ne_zero (hprod hinj ⟨0, hn⟩)
      have h3 := inv_ne_zero (htne ⟨0, hn⟩)
      exact mul_ne_zero hω (mul_ne_zero h2 h3) h1.symm
    refine ⟨(Lagrange.nodal Finset.univ points).eval t * D / c, fun j => ?_⟩
    have h1 := hrow j
    rw [hval, Lagrange.eval_basis_not_at_node (Finset.mem_univ _) (sub_ne_zero.mp (htne _)), hc, hnw, hnw] at h1
    have h2 := hprod hinj j
    have h3 := hprod hq.injective j
    have h4 := htne j
    field_simp at h1 ⊢
    linear_combination h1
  · rintro ⟨d, hd⟩ r times p hp
    have hd0 : d ≠ 0 := by
      rintro rfl
      exact hprod hinj ⟨0, hn⟩ (by rw [hd, zero_mul])
    have hWF : L.WF := by
      refine ⟨hS.injU, c * d, mul_ne_zero hc0 hd0, fun u => ?_⟩
      have h1 := hc (Fin.cast hN u)
      simp only [Fin.cast_cast, Fin.cast_eq_self] at h1
      rw [h1]
      have h2 : Lagrange.nodalWeight Finset.univ L.uniquePoints u =
          Lagrange.nodalWeight Finset.univ points (Fin.cast hN u) := by
        unfold Lagrange.nodalWeight
        refine Finset.prod_bij (fun a _ => Fin.cast hN a) ?_ ?_ ?_ ?_
        · intro a ha
          simp only [Finset.mem_erase, Finset.mem_univ, and_true] at ha ⊢
          intro hh
          exact ha (by simpa using hh)
        · intro a _ b _ hab
          simpa using hab
        · intro b hb
          refine ⟨Fin.cast hN.symm b, ?_, by simp⟩
          simp only [Finset.mem_erase, Finset.mem_univ, and_true] at hb ⊢
          intro hh
          exact hb (by rw [← hh]; simp)
        · intro a _
          rw [← hu, ← hu]
          simp
      rw [h2, hnw, hnw, hd]
      have h3 := hprod hq.injective (Fin.cast hN u)
      field_simp
    funext i
    rw [getInterpolationMatrix, hrep.mulVec_rep hWF.inj]
    have : ∀ u, Spec.vals p points (Fin.cast hN u) = p.eval (L.uniquePoints u) := fun u => by
      rw [Spec.vals, ← hu]; simp
    simp only [this]
    exact mulVec_eval hWF times p (by rw [hN]; exact hp) i

/-- The hypotheses of `C10_exact_iff` are met by the unsorted points `[1, 0]`, and the interpolation is exact there:
two points may be given in any order. -/
example : ∃ L, LagrangeApproximation.new ![(1:ℝ), 0] = .ok L ∧
    ∀ (r : ℕ) (times : Fin r → ℝ) (p : ℝ[X]), p.degree < (2 : ℕ) →
      L.getInterpolationMatrix times *ᵥ Spec.vals p ![(1:ℝ), 0] = Spec.vals p times := by
  have hinj : Function.Injective ![(1:ℝ), 0] := by
    intro i j h
    fin_cases i <;> fin_cases j <;> simp_all
  have hq : StrictMono ![(0:ℝ), 1] := by
    refine Fin.strictMono_iff_lt_succ.mpr fun i => ?_
    fin_cases i <;> simp
  obtain ⟨L, hL⟩ := C01_constructor_total (n := 2) (by norm_num) ![(1:ℝ), 0] "AUTO" false
    "MAX" "USE_LEFT" ⟨by simp, by simp, by simp, by simp⟩
  refine ⟨L, hL, (C10_exact_iff (by norm_num) _ ![(0:ℝ), 1] hinj hq ?_ _ _ _ _ _ (by simp) L hL).mpr ⟨-1, fun j => ?_⟩⟩
  · ext x
    simp only [Matrix.range_cons, Matrix.range_empty, Set.mem_union, Set.mem_singleton_iff]
    tauto
  · fin_cases j
    · rw [show (Finset.univ.erase (⟨0, by norm_num⟩ : Fin 2)) = {1} by decide]
      simp
    · rw [show (Finset.univ.erase (⟨1, by norm_num⟩ : Fin 2)) = {0} by decide]
      simp

end QMat
