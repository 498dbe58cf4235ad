import Verif.Props.Lagrange
import Verif.Lemmas.Dup

/-!
# Properties C09, C10, C11: duplicated points, unsorted points, calling the approximation
-/

namespace QMat

open Matrix Polynomial LagrangeApproximation

/-- C09 (columns): `q` are the distinct values of `points` in increasing order.  With `USE_LEFT` the
column of a point that already occurred is zero and the column of a first occurrence is the column
of the approximation built on `q`; with `USE_RIGHT` the same with last occurrences. -/
theorem C09_duplicates_columns {n m r : ℕ} (points : Fin n → ℝ)
    (hdup : ¬ Function.Injective points)
    (q : Fin m → ℝ) (hq : StrictMono q) (hr : Set.range q = Set.range points)
    (wc wc' : String) (sw sw' : Bool) (sr sr' dupl dupl' : String) (fv fv')
    (hcheb : wc = "CHEBFUN" ∨ wc' = "CHEBFUN" → 2 ≤ m)
    (L : LagrangeApproximation n) (hL : LagrangeApproximation.new points wc sw sr dupl fv = .ok L)
    (L' : LagrangeApproximation m)
    (hL' : LagrangeApproximation.new q wc' sw' sr' dupl' fv' = .ok L')
    (times : Fin r → ℝ) (i : Fin r) (j : Fin n) (u : Fin m) (hju : points j = q u) :
    (dupl = "USE_LEFT" →
      ((∃ j' < j, points j' = points j) → L.getInterpolationMatrix times i j = 0) ∧
      ((¬ ∃ j' < j, points j' = points j) →
        L.getInterpolationMatrix times i j = L'.getInterpolationMatrix times i u)) ∧
    (dupl = "USE_RIGHT" →
      ((∃ j', j < j' ∧ points j' = points j) → L.getInterpolationMatrix times i j = 0) ∧
      ((¬ ∃ j', j < j' ∧ points j' = points j) →
        L.getInterpolationMatrix times i j = L'.getInterpolationMatrix times i u)) := by
  obtain ⟨hS, -, hWF0⟩ := new_spec hL
  obtain ⟨hS', -, hWF0'⟩ := new_spec hL'
  obtain ⟨h, hqu, hcol⟩ := dup_columns hdup hq hr hS
  have hm : npUniqueSize points = m := hS.nUnique.symm.trans h.symm
  have hm' : npUniqueSize q = m := (npUniqueSize_eq_iff q).mpr hq.injective
  have hWF := hWF0 (Or.inr hdup) (fun e => by rw [hm]; exact hcheb (Or.inl e))
  have hWF' := hWF0' (Or.inl hq) (fun e => by rw [hm']; exact hcheb (Or.inr e))
  obtain ⟨h', hu', hrep'⟩ := hS'.noDup hq.injective
  have e : L'.getInterpolationMatrix times i u =
      L.interpolationMatrixU times i (Fin.cast h u) := by
    have a := hrep'.entry_rep (L'.interpolationMatrixU times) i (Fin.cast h'.symm u)
    simp only [Fin.cast_cast, Fin.cast_eq_self] at a
    rw [getInterpolationMatrix, a, interpolationMatrixU_eq_basis hWF,
      interpolationMatrixU_eq_basis hWF', ← basis_cast h q L.uniquePoints hqu,
      ← basis_cast h'.symm q L'.uniquePoints (fun v => (hu' v).symm)]
  have c := hcol (L.interpolationMatrixU times) i j u hju
  rw [e]
  exact c

/-- C09 (exactness): with duplicates, in any order, polynomials of degree smaller than the number of
distinct points are reproduced. -/
theorem C09_duplicates_exact {n m r : ℕ} (points : Fin n → ℝ) (hdup : ¬ Function.Injective points)
    (hm : Nat.card (Set.range points) = m)
    (wc : String) (sw : Bool) (sr dupl : String) (fv) (hcheb : wc = "CHEBFUN" → 2 ≤ m)
    (L : LagrangeApproximation n) (hL : LagrangeApproximation.new points wc sw sr dupl fv = .ok L)
    (times : Fin r → ℝ) (p : ℝ[X]) (hdeg : p.degree < m) :
    L.getInterpolationMatrix times *ᵥ Spec.vals p points = Spec.vals p times := by
  have : npUniqueSize points = m := by
    rw [← hm, npUniqueSize, ← Set.ncard_coe_finset, ← Nat.card_coe_set_eq]
    simp
  subst this
  exact interpolation_exact_general points (Or.inr hdup) wc sw sr dupl fv hcheb L hL times p hdeg

/-- C09 applies: `[1, 0, 1]` with `USE_LEFT` zeroes the third column. -/
example : ∃ L, LagrangeApproximation.new ![(1:ℝ), 0, 1] = .ok L ∧
    ∀ i, L.getInterpolationMatrix ![(3:ℝ)] i 2 = 0 := by
  have hdup : ¬ Function.Injective ![(1:ℝ), 0, 1] := fun h => by
    have : (0 : Fin 3) = 2 := h rfl
    simp at this
  have hq : StrictMono ![(0:ℝ), 1] := by
    refine Fin.strictMono_iff_lt_succ.mpr fun i => ?_
    fin_cases i; simp
  have hr : Set.range ![(0:ℝ), 1] = Set.range ![(1:ℝ), 0, 1] := by
    ext x
    simp only [Set.mem_range, Fin.exists_fin_succ]
    simp only [Fin.succ_zero_eq_one, Fin.isValue, Matrix.cons_val_zero, Matrix.cons_val_one]
    constructor
    · rintro (h | h | ⟨i, -⟩)
      · exact Or.inr (Or.inl h)
      · exact Or.inl h
      · exact i.elim0
    · rintro (h | h | h | ⟨i, -⟩)
      · exact Or.inr (Or.inl h)
      · exact Or.inl h
      · exact Or.inr (Or.inl h)
      · exact i.elim0
  obtain ⟨L, hL⟩ := C01_constructor_total (n := 3) (by norm_num) ![(1:ℝ), 0, 1] "AUTO" false
    "MAX" "USE_LEFT" ⟨by simp, by simp, by simp, by simp⟩
  obtain ⟨L', hL'⟩ := C01_constructor_total (n := 2) (by norm_num) ![(0:ℝ), 1] "AUTO" false
    "MAX" "USE_LEFT" ⟨by simp, by simp, by simp, by simp⟩
  refine ⟨L, hL, fun i => ?_⟩
  exact ((C09_duplicates_columns _ hdup _ hq hr _ _ _ _ _ _ _ _ _ _ (by simp) L hL L' hL' _ i 2 1
    rfl).1 rfl).1 ⟨0, by decide, rfl⟩

/-- C10: exactness for sorted points, and for any order when there are
duplicates.  For distinct points that are not sorted see `C10_exact_iff`, it may be false
(`C10_unsorted_points_fails`). -/
theorem C10_sorted_or_duplicates {n r : ℕ} (points : Fin n → ℝ)
    (hpts : StrictMono points ∨ ¬ Function.Injective points)
    (wc : String) (sw : Bool) (sr dupl : String) (fv)
    (hcheb : wc = "CHEBFUN" → 2 ≤ Nat.card (Set.range points))
    (L : LagrangeApproximation n) (hL : LagrangeApproximation.new points wc sw sr dupl fv = .ok L)
    (times : Fin r → ℝ) (p : ℝ[X]) (hdeg : p.degree < Nat.card (Set.range points)) :
    L.getInterpolationMatrix times *ᵥ Spec.vals p points = Spec.vals p times := by
  have : Nat.card (Set.range points) = npUniqueSize points := by
    rw [npUniqueSize, ← Set.ncard_coe_finset, ← Nat.card_coe_set_eq]
    simp
  rw [this] at hcheb hdeg
  exact interpolation_exact_general points hpts wc sw sr dupl fv hcheb L hL times p hdeg

/-- Instance: with the points `[1, 0, 1]`, lines are evaluated exactly, here `2 X - 5` at `3`. -/
example : ∃ L, LagrangeApproximation.new ![(1:ℝ), 0, 1] = .ok L ∧
    L.getInterpolationMatrix ![(3:ℝ)] *ᵥ Spec.vals (C 2 * X - C 5) ![(1:ℝ), 0, 1] = ![1] := by
  obtain ⟨L, hL⟩ := C01_constructor_total (by norm_num) ![(1:ℝ), 0, 1] "AUTO" false "MAX" "USE_LEFT"
    ⟨by decide, by decide, by decide, by decide⟩
  have hdup : ¬ Function.Injective ![(1:ℝ), 0, 1] := fun h => by
    have : (0 : Fin 3) = 2 := h rfl
    simp at this
  have hcard : Nat.card (Set.range ![(1:ℝ), 0, 1]) = 2 := by
    have : Set.range ![(1:ℝ), 0, 1] = {1, 0} := by
      ext x
      simp only [Matrix.range_cons, Matrix.range_empty, Set.mem_union, Set.mem_singleton_iff, Set.mem_insert_iff,
        Set.mem_empty_iff_false]
      tauto
    rw [this, Nat.card_coe_set_eq, Set.ncard_pair one_ne_zero]
  refine ⟨L, hL, ?_⟩
  rw [C10_sorted_or_duplicates _ (Or.inr hdup) _ _ _ _ _ (by simp) L hL]
  · funext i
    fin_cases i
    simp [Spec.vals]
    norm_num
  · rw [hcard]
    refine lt_of_le_of_lt (degree_sub_le _ _) (max_lt ?_ (lt_of_le_of_lt degree_C_le (by norm_num)))
    exact lt_of_le_of_lt (degree_C_mul_X_le 2) (by norm_num)

theorem npUnique_021 (h : npUniqueSize ![(0:ℝ), 2, 1] = 3) (i : Fin 3) :
    npUnique ![(0:ℝ), 2, 1] (Fin.cast h.symm i) = ![(0:ℝ), 1, 2] i := by
  have hq : StrictMono ![(0:ℝ), 1, 2] := by
    refine Fin.strictMono_iff_lt_succ.mpr fun i => ?_
    fin_cases i <;> simp
  have hr : Set.range ![(0:ℝ), 1, 2] = Set.range ![(0:ℝ), 2, 1] := by
    ext x
    simp only [Matrix.range_cons, Matrix.range_empty, Set.mem_union, Set.mem_singleton_iff]
    tauto
  obtain ⟨_, hh⟩ := exists_cast_npUnique _ _ hq hr
  exact (hh i).symm

/-- C10 fails: for the distinct points `[0, 2, 1]` the default constructor succeeds, but the
interpolation matrix evaluates `X^2` at `3` to `45/7`, not `9`. -/
theorem C10_unsorted_points_fails :
    Function.Injective ![(0:ℝ), 2, 1] ∧
    ∃ L, LagrangeApproximation.new ![(0:ℝ), 2, 1] = .ok L ∧
      (L.getInterpolationMatrix ![(3:ℝ)] *ᵥ Spec.vals (X ^ 2 : ℝ[X]) ![(0:ℝ), 2, 1]) 0 = 45 / 7 ∧
      (X ^ 2 : ℝ[X]).degree < (3 : ℕ) ∧
      Spec.vals (X ^ 2 : ℝ[X]) ![(3:ℝ)] 0 = 9 := by
  have hinj : Function.Injective ![(0:ℝ), 2, 1] := by
    intro i j h
    fin_cases i <;> fin_cases j <;> simp_all
  have hsz : npUniqueSize ![(0:ℝ), 2, 1] = 3 := (npUniqueSize_eq_iff _).mpr hinj
  refine ⟨hinj, ?_⟩
  have hnz : ¬ ∃ i, ∏ j, wDiffs (npUnique ![(0:ℝ), 2, 1]) i j = 0 := by
    rintro ⟨i, hi⟩
    exact Finset.prod_ne_zero_iff.mpr
      (fun j _ => wDiffs_ne_zero (npUnique_strictMono _).injective i j) hi
  have hnew : LagrangeApproximation.new ![(0:ℝ), 2, 1] = .ok
      { points := ![(0:ℝ), 2, 1], nUniquePoints := 3, uniquePoints := ![(0:ℝ), 2, 1],
        weights := fun i => analyticWeights (npUnique ![(0:ℝ), 2, 1]) (Fin.cast hsz.symm i),
        dup := .passThrough rfl, fValues := none } := by
    simp only [LagrangeApproximation.new, hsz, computeWeights, if_true, hnz, if_false, scaleW,
      checkFValues, bind, Except.bind, pure, Except.pure, dite_true]
    rfl
  have hprod : ∀ i : Fin 3, analyticWeights (npUnique ![(0:ℝ), 2, 1]) (Fin.cast hsz.symm i) =
      ![(1/2 : ℝ), -1, 1/2] i := by
    intro i
    have e : ∏ j, wDiffs (npUnique ![(0:ℝ), 2, 1]) (Fin.cast hsz.symm i) j =
        ∏ j : Fin 3, wDiffs ![(0:ℝ), 1, 2] i j := by
      refine Fintype.prod_equiv (finCongr hsz) _ _ fun j => ?_
      simp only [wDiffs, finCongr_apply]
      have hj : npUnique ![(0:ℝ), 2, 1] j = ![(0:ℝ), 1, 2] (Fin.cast hsz j) := by
        rw [← npUnique_021 hsz]; simp
      rw [npUnique_021 hsz, hj]
      congr 1
      exact propext ⟨fun h => by rw [← h]; simp, fun h => by rw [h]; simp⟩
    rw [analyticWeights, e]
    fin_cases i <;> simp [Fin.prod_univ_three, wDiffs]
    all_goals norm_num
  refine ⟨_, hnew, ?_, ?_, ?_⟩
  · simp only [hprod]
    have : ∀ j : Fin 3, ¬ (3 - ![(0:ℝ), 2, 1] j = 0) := by
      intro j; fin_cases j <;> norm_num
    simp only [Matrix.mulVec, dotProduct, Fin.sum_univ_three, getInterpolationMatrix,
      handleDuplicates, interpolationMatrixU, Matrix.of_apply, Spec.vals, Matrix.cons_val_fin_one,
      this, exists_false, if_false, eval_pow, eval_X]
    simp
    norm_num
  · rw [degree_X_pow]; exact_mod_cast (by norm_num : 2 < 3)
  · simp [Spec.vals]; norm_num

/-- C11: the values returned by calling the approximation are the interpolation matrix applied to
the given values, or to the stored ones. -/
theorem C11_call {n r : ℕ} (points : Fin n → ℝ) (wc : String) (sw : Bool) (sr dupl : String)
    (stored : Option (Fin n → ℝ)) (L : LagrangeApproximation n)
    (hL : LagrangeApproximation.new points wc sw sr dupl (stored.map fun f => ⟨n, f⟩) = .ok L)
    (t : Fin r → ℝ) :
    (∀ f : Fin n → ℝ, L.call t (some ⟨n, f⟩) = .ok (L.getInterpolationMatrix t *ᵥ f)) ∧
    (∀ f, stored = some f → L.call t = .ok (L.getInterpolationMatrix t *ᵥ f)) ∧
    (stored = none → L.call t = .error .assertionError) ∧
    (∀ k (f : Fin k → ℝ), k ≠ n → L.call t (some ⟨k, f⟩) = .error .valueError) := by
  obtain ⟨-, hf, -⟩ := new_spec hL
  refine ⟨fun f => ?_, ?_, ?_, ?_⟩
  · simp [call, bind, Except.bind, pure, Except.pure]
  · rintro f rfl
    simp only [Option.map_some, checkFValues, dite_true, Except.ok.injEq] at hf
    simp [call, bind, Except.bind, pure, Except.pure, ← hf]
  · rintro rfl
    simp only [Option.map_none, checkFValues, Except.ok.injEq] at hf
    simp [call, bind, Except.bind, ← hf, throw, throwThe, MonadExceptOf.throw]
  · intro k f hk
    simp [call, bind, Except.bind, pure, Except.pure, hk, throw, throwThe, MonadExceptOf.throw]

/-- C11: stored values of a wrong size make the constructor raise `ValueError`; nothing else about
the constructor depends on the stored values. -/
theorem C11_stored_values_shape {n : ℕ} (points : Fin n → ℝ) (wc : String) (sw : Bool)
    (sr dupl : String) (L : LagrangeApproximation n)
    (hL : LagrangeApproximation.new points wc sw sr dupl none = .ok L) (k : ℕ) (f : Fin k → ℝ) :
    (k ≠ n → LagrangeApproximation.new points wc sw sr dupl (some ⟨k, f⟩) = .error .valueError) ∧
    (∀ h : k = n, LagrangeApproximation.new points wc sw sr dupl (some ⟨k, f⟩) =
      .ok { L with fValues := some fun i => f (Fin.cast h.symm i) }) := by
  unfold LagrangeApproximation.new at hL ⊢
  simp only [bind, Except.bind, pure, Except.pure, checkFValues] at hL ⊢
  split_ifs at hL ⊢ with hn h1 h2
  all_goals
    split at hL
    · simp at hL
    rename_i w hw
    split at hL
    · simp at hL
    rename_i w' hw'
    have hL := (Except.ok.inj hL).symm
    subst hL
    first
      | exact ⟨fun hk => absurd ‹k = n› hk, fun hk => by simp⟩
      | exact ⟨fun hk => by simp, fun hk => absurd hk ‹¬ k = n›⟩

example : ∃ L, LagrangeApproximation.new ![(0:ℝ), 1/2, 1] "AUTO" false "MAX" "USE_LEFT"
      (some ⟨3, ![1, 2, 3]⟩) = .ok L ∧
    L.call ![1/3] = .ok (L.getInterpolationMatrix ![1/3] *ᵥ ![1, 2, 3]) := by
  obtain ⟨L, hL⟩ := C01_constructor_total (n := 3) (by norm_num) ![(0:ℝ), 1/2, 1] "AUTO" false
    "MAX" "USE_LEFT" ⟨by simp, by simp, by simp, by simp⟩
  have h := (C11_stored_values_shape _ _ _ _ _ L hL 3 ![1, 2, 3]).2 rfl
  exact ⟨_, h, (C11_call ![(0:ℝ), 1/2, 1] "AUTO" false "MAX" "USE_LEFT" (some ![1, 2, 3]) _ h
    ![1/3]).2.1 _ rfl⟩

end QMat
