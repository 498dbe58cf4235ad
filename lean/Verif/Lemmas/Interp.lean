import Verif.Lemmas.Lagrange

/-!
# Lemmas: the interpolation matrix evaluates the Lagrange basis
-/

namespace QMat

open Matrix Polynomial

namespace LagrangeApproximation

variable {n : ℕ}

/-- A well-formed approximation: the stored unique points are distinct and the stored weights are
barycentric weights for them. -/
structure WF (L : LagrangeApproximation n) : Prop where
  inj : Function.Injective L.uniquePoints
  bary : IsBary L.uniquePoints L.weights

theorem interpolationMatrixU_eq_basis {L : LagrangeApproximation n} (hL : L.WF) {r : ℕ}
    (times : Fin r → ℝ) (i : Fin r) (j : Fin L.nUniquePoints) :
    L.interpolationMatrixU times i j =
      (Lagrange.basis Finset.univ L.uniquePoints j).eval (times i) := by
  obtain ⟨hinj, hw⟩ := hL
  have hw0 := fun i => hw.weights_ne_zero hinj i
  unfold interpolationMatrixU
  simp only [Matrix.of_apply]
  by_cases h : ∃ j', times i - L.uniquePoints j' = 0
  · simp only [h, if_true]
    obtain ⟨j', hj'⟩ := h
    have ht : times i = L.uniquePoints j' := sub_eq_zero.mp hj'
    have heq : ∀ k, (times i - L.uniquePoints k = 0) ↔ k = j' := fun k => by
      rw [ht, sub_eq_zero]
      exact ⟨fun h => (hinj h).symm, fun h => by rw [h]⟩
    simp only [heq, ite_mul, one_mul, zero_mul, Finset.sum_ite_eq', Finset.mem_univ, if_true]
    by_cases hjj : j = j'
    · subst hjj
      rw [if_pos rfl, ht, Lagrange.eval_basis_self hinj.injOn (Finset.mem_univ _),
        div_self (hw0 _)]
    · rw [if_neg hjj, zero_div, ht, Lagrange.eval_basis_of_ne hjj (Finset.mem_univ _)]
  · simp only [h, if_false]
    push Not at h
    obtain ⟨c, hc, hw⟩ := hw
    have hne : ∀ k ∈ Finset.univ, times i ≠ L.uniquePoints k := fun k _ => sub_ne_zero.mp (h k)
    have hN : (Lagrange.nodal Finset.univ L.uniquePoints).eval (times i) ≠ 0 := by
      rw [Lagrange.eval_nodal]
      exact Finset.prod_ne_zero_iff.mpr fun k _ => h k
    have hb : ∀ k, (Lagrange.basis Finset.univ L.uniquePoints k).eval (times i) =
        (Lagrange.nodal Finset.univ L.uniquePoints).eval (times i) / c *
          (1 / (times i - L.uniquePoints k) * L.weights k) := fun k => by
      rw [Lagrange.eval_basis_not_at_node (Finset.mem_univ k) (hne k (Finset.mem_univ k)), hw]
      field_simp
    have hs : ∑ k, (Lagrange.basis Finset.univ L.uniquePoints k).eval (times i) = 1 := by
      rw [← Polynomial.eval_finsetSum, Lagrange.sum_basis hinj.injOn ⟨j, Finset.mem_univ j⟩]
      simp
    have hs' := hs
    simp only [hb, ← Finset.mul_sum] at hs'
    have hS : ∑ k, 1 / (times i - L.uniquePoints k) * L.weights k ≠ 0 := by
      intro h0
      rw [h0, mul_zero] at hs'
      exact zero_ne_one hs'
    rw [hb, div_eq_iff hS]
    calc _ = (1 / (times i - L.uniquePoints j) * L.weights j) *
          ((Lagrange.nodal Finset.univ L.uniquePoints).eval (times i) / c *
            ∑ k, 1 / (times i - L.uniquePoints k) * L.weights k) := by rw [hs', mul_one]
      _ = _ := by ring

/-- `_handleDuplicates` reads the values at one representative of each unique point. -/
structure DupSpec (L : LagrangeApproximation n) (rep : Fin L.nUniquePoints → Fin n) : Prop where
  points_rep : ∀ u, L.points (rep u) = L.uniquePoints u
  entry_rep : ∀ {r : ℕ} (M : Matrix (Fin r) (Fin L.nUniquePoints) ℝ) i u,
    L.handleDuplicates M i (rep u) = M i u
  entry_zero : ∀ {r : ℕ} (M : Matrix (Fin r) (Fin L.nUniquePoints) ℝ) i j,
    j ∉ Set.range rep → L.handleDuplicates M i j = 0

theorem DupSpec.mulVec_rep {L : LagrangeApproximation n} {rep} (h : L.DupSpec rep)
    (hinj : Function.Injective L.uniquePoints) {r : ℕ}
    (M : Matrix (Fin r) (Fin L.nUniquePoints) ℝ) (f : Fin n → ℝ) (i : Fin r) :
    (L.handleDuplicates M *ᵥ f) i = ∑ u, M i u * f (rep u) := by
  have hrep : Function.Injective rep := fun u v huv => hinj (by
    rw [← h.points_rep, ← h.points_rep, huv])
  change ∑ j, L.handleDuplicates M i j * f j = _
  rw [← Finset.sum_subset (Finset.subset_univ (Finset.univ.map ⟨rep, hrep⟩))]
  · rw [Finset.sum_map]
    exact Finset.sum_congr rfl fun u _ => by rw [Function.Embedding.coeFn_mk, h.entry_rep]
  · intro j _ hj
    rw [h.entry_zero, zero_mul]
    rintro ⟨u, rfl⟩
    exact hj (Finset.mem_map.mpr ⟨u, Finset.mem_univ _, rfl⟩)

theorem mulVec_eval {L : LagrangeApproximation n} (hL : L.WF) {r : ℕ} (times : Fin r → ℝ)
    (p : ℝ[X]) (hp : p.degree < L.nUniquePoints) (i : Fin r) :
    ∑ u, L.interpolationMatrixU times i u * p.eval (L.uniquePoints u) = p.eval (times i) := by
  have h := Lagrange.eq_interpolate (s := Finset.univ) (v := L.uniquePoints) (f := p)
    hL.inj.injOn (by simpa using hp)
  conv_rhs => rw [h]
  rw [Lagrange.interpolate_apply, Polynomial.eval_finsetSum]
  refine Finset.sum_congr rfl fun u _ => ?_
  rw [interpolationMatrixU_eq_basis hL, Polynomial.eval_mul, Polynomial.eval_C, mul_comm]

end LagrangeApproximation

open LagrangeApproximation

/-- What a successful constructor call guarantees. -/
structure NewSpec {n : ℕ} (points : Fin n → ℝ) (dupl : String) (L : LagrangeApproximation n) :
    Prop where
  points_eq : L.points = points
  injU : Function.Injective L.uniquePoints
  rangeU : Set.range L.uniquePoints = Set.range points
  /-- without duplicates the unique points are the points -/
  noDup : Function.Injective points → ∃ h : L.nUniquePoints = n,
    (∀ i, L.uniquePoints (Fin.cast h.symm i) = points i) ∧
    L.DupSpec (fun u => Fin.cast h u)
  /-- with duplicates the unique points are sorted -/
  dup : ¬ Function.Injective points → ∃ h : L.nUniquePoints = npUniqueSize points,
    (∀ i, L.uniquePoints (Fin.cast h.symm i) = npUnique points i) ∧
    ((dupl = "USE_LEFT" ∧ L.DupSpec (fun u => npUniqueFirst points (Fin.cast h u))) ∨
     (dupl = "USE_RIGHT" ∧ L.DupSpec (fun u => npUniqueLast points (Fin.cast h u))))

theorem range_npUnique {n : ℕ} (points : Fin n → ℝ) :
    Set.range (npUnique points) = Set.range points := by
  ext x
  constructor
  · rintro ⟨j, rfl⟩
    exact ⟨_, points_npUniqueFirst points j⟩
  · rintro ⟨i, rfl⟩
    exact ⟨_, npUnique_inverse points i⟩

theorem gather_dupSpec {n : ℕ} (points : Fin n → ℝ) (w : Fin (npUniqueSize points) → ℝ) (fv)
    (rep : Fin (npUniqueSize points) → Fin n) (hrep : ∀ u, points (rep u) = npUnique points u) :
    DupSpec ⟨points, npUniqueSize points, npUnique points, w,
      .gather (npUniqueInverse points) rep, fv⟩ rep where
  points_rep := hrep
  entry_rep M i u := by
    simp only [handleDuplicates, Matrix.of_apply, Set.mem_range_self, if_true]
    rw [npUniqueInverse_eq_of points (hrep u)]
  entry_zero M i j hj := by
    simp only [handleDuplicates, Matrix.of_apply, hj, if_false]

/-- Inversion of the constructor. -/
theorem new_spec {n : ℕ} {points : Fin n → ℝ} {wc : String} {sw : Bool} {sr dupl : String} {fv}
    {L : LagrangeApproximation n} (h : LagrangeApproximation.new points wc sw sr dupl fv = .ok L) :
    NewSpec points dupl L ∧ checkFValues fv = .ok L.fValues ∧
    ((StrictMono points ∨ ¬ Function.Injective points) →
      (wc = "CHEBFUN" → 2 ≤ npUniqueSize points) → L.WF) := by
  unfold LagrangeApproximation.new at h
  simp only [bind, Except.bind, pure, Except.pure] at h
  split_ifs at h with hn h1 h2
  · -- no duplicates
    split at h
    · simp at h
    rename_i w hw
    split at h
    · simp at h
    rename_i w' hw'
    split at h
    · simp at h
    rename_i f hf
    have hL := (Except.ok.inj h).symm
    have hinj := (npUniqueSize_eq_iff points).mp hn
    subst hL
    refine ⟨⟨rfl, hinj, rfl, fun _ => ⟨rfl, fun _ => rfl, ⟨fun _ => rfl, ?_, ?_⟩⟩,
      fun hd => absurd hinj hd⟩, hf, ?_⟩
    · intro r M i u; rfl
    · intro r M i j hj
      exact absurd ⟨j, rfl⟩ hj
    · intro hs hc
      refine ⟨hinj, ?_⟩
      have hs := hs.resolve_right (fun hd => hd hinj)
      have hb := isBary_scaleW (npUnique_strictMono points).injective
        (isBary_computeWeights (npUnique_strictMono points).injective hc hw) hw'
      obtain ⟨c, hc0, hc⟩ := hb
      refine ⟨c, hc0, fun i => ?_⟩
      simp only
      rw [hc]
      congr 1
      unfold Lagrange.nodalWeight
      rw [npUnique_eq_of_strictMono hs hn]
      refine Finset.prod_bij (fun a _ => Fin.cast hn a) ?_ ?_ ?_ ?_
      · intro a ha
        simp only [Finset.mem_erase, Finset.mem_univ, and_true] at ha ⊢
        intro hh
        exact ha (by rw [← hh]; simp)
      · intro a _ b _ hab
        simpa using hab
      · intro b hb
        refine ⟨Fin.cast hn.symm b, ?_, by simp⟩
        simp only [Finset.mem_erase, Finset.mem_univ, and_true] at hb ⊢
        intro hh
        exact hb (by simpa using hh)
      · intro a _
        rw [← npUnique_eq_of_strictMono hs hn (Fin.cast hn a)]
        simp
  all_goals
    split at h
    · simp at h
    rename_i w hw
    split at h
    · simp at h
    rename_i w' hw'
    split at h
    · simp at h
    rename_i f hf
    have hL := (Except.ok.inj h).symm
    subst hL
    have hninj : ¬ Function.Injective points := fun hi => hn ((npUniqueSize_eq_iff points).mpr hi)
    refine ⟨⟨rfl, (npUnique_strictMono points).injective, range_npUnique points,
      fun hi => absurd hi hninj, fun _ => ⟨rfl, fun _ => rfl, ?_⟩⟩, hf, ?_⟩
  · exact Or.inl ⟨h1, gather_dupSpec _ _ _ _ (points_npUniqueFirst points)⟩
  · intro _ hc
    exact ⟨(npUnique_strictMono points).injective, isBary_scaleW (npUnique_strictMono points).injective
        (isBary_computeWeights (npUnique_strictMono points).injective hc hw) hw'⟩
  · exact Or.inr ⟨h2, gather_dupSpec _ _ _ _ (points_npUniqueLast points)⟩
  · intro _ hc
    exact ⟨(npUnique_strictMono points).injective, isBary_scaleW (npUnique_strictMono points).injective
        (isBary_computeWeights (npUnique_strictMono points).injective hc hw) hw'⟩

theorem NewSpec.exists_rep {n : ℕ} {points : Fin n → ℝ} {dupl : String}
    {L : LagrangeApproximation n} (h : NewSpec points dupl L) : ∃ rep, L.DupSpec rep := by
  by_cases hi : Function.Injective points
  · obtain ⟨_, _, h⟩ := h.noDup hi
    exact ⟨_, h⟩
  · obtain ⟨_, _, h | h⟩ := h.dup hi
    · exact ⟨_, h.2⟩
    · exact ⟨_, h.2⟩

theorem NewSpec.nUnique {n : ℕ} {points : Fin n → ℝ} {dupl : String}
    {L : LagrangeApproximation n} (h : NewSpec points dupl L) :
    L.nUniquePoints = npUniqueSize points := by
  by_cases hi : Function.Injective points
  · obtain ⟨h, _⟩ := h.noDup hi
    rw [h, (npUniqueSize_eq_iff points).mpr hi]
  · exact (h.dup hi).1

end QMat
