import Verif.Lemmas.Integration
import Verif.Props.LagrangeDup

/-!
# Properties C04, C05, C06: integration matrix and Fejér rule
-/

namespace QMat

open Matrix Polynomial LagrangeApproximation

/-- C05: for `n ≥ 1` `computeFejerRule(n)` returns (no `ValueError`), its nodes are strictly
increasing in `(-1, 1)`, and the rule integrates over `[-1, 1]` exactly every polynomial of degree
`< n`, and of degree `≤ n` when `n` is odd. -/
theorem C05_fejer_rule {n : ℕ} (hn : 0 < n) :
    ∃ x w : Fin n → ℝ, computeFejerRule n = .ok (x, w) ∧ StrictMono x ∧
      (∀ k, x k ∈ Set.Ioo (-1 : ℝ) 1) ∧
      (∀ p : ℝ[X], p.degree < n →
        ∑ k, w k * p.eval (x k) = ∫ t in (-1 : ℝ)..1, p.eval t) ∧
      (Odd n → ∀ p : ℝ[X], p.degree ≤ n →
        ∑ k, w k * p.eval (x k) = ∫ t in (-1 : ℝ)..1, p.eval t) := by
  refine ⟨_, _, computeFejerRule_eq hn, fejerNodes_strictMono n, fejerNodes_mem n,
    fun p hp => fejer_exact hn p (lt_of_lt_of_le hp (by exact_mod_cast Nat.le_add_right _ _)),
    fun ho p hp => fejer_exact hn p (lt_of_le_of_lt hp ?_)⟩
  rw [Nat.odd_iff.mp ho]
  exact_mod_cast Nat.lt_succ_self n

/-- C05 (degenerate request): `computeFejerRule(0)` raises. -/
theorem C05_fejer_zero : computeFejerRule 0 = .error .valueError := computeFejerRule_zero

/-- C06: the weights are positive, symmetric and add up to 2; the nodes are antisymmetric. -/
theorem C06_fejer_weights {n : ℕ} (hn : 0 < n) :
    ∃ x w : Fin n → ℝ, computeFejerRule n = .ok (x, w) ∧ (∀ k, 0 < w k) ∧
      (∀ k, w k.rev = w k) ∧ (∀ k, x k.rev = - x k) ∧ ∑ k, w k = 2 := by
  refine ⟨_, _, computeFejerRule_eq hn, fun k => fejerW_pos hn k, fun k => ?_, fun k => ?_, ?_⟩
  · have := fejerW_symm n k k.isLt
    have hk := k.isLt
    rw [Fin.val_rev, show n - (k + 1) = n - 1 - (k : ℕ) by omega, this]
  · have hn' : (n : ℝ) ≠ 0 := by exact_mod_cast hn.ne'
    unfold fejerNodes
    rw [← Real.cos_pi_sub]
    congr 1
    have hk : (k : ℕ) + 1 ≤ n := k.isLt
    rw [Fin.val_rev, Nat.cast_sub hk]
    push_cast
    field_simp
    ring
  · have h := fejer_exact hn 1 (by
      rw [degree_one]; exact_mod_cast Nat.lt_of_lt_of_le hn (Nat.le_add_right _ _))
    unfold Spec.QuadExact at h
    rw [polyInt_one] at h
    simp only [eval_one, mul_one] at h
    linarith

/-- C05 and C06 apply, e.g. with 3 points: Fejér's rule integrates `t ^ 3` exactly. -/
example : ∃ x w : Fin 3 → ℝ, computeFejerRule 3 = .ok (x, w) ∧
    ∑ k, w k * x k ^ 3 = 0 := by
  obtain ⟨x, w, h, -, -, -, ho⟩ := C05_fejer_rule (n := 3) (by norm_num)
  refine ⟨x, w, h, ?_⟩
  have := ho (by decide) (X ^ 3) (by simp)
  norm_num at this
  exact this

/-- The integration matrix is exact for increasing points and for points with duplicates. -/
theorem integration_exact_general {n r : ℕ} (points : Fin n → ℝ) (hn : 0 < n)
    (hp : StrictMono points ∨ ¬ Function.Injective points)
    (wc : String) (sw : Bool) (sr dupl : String) (fv)
    (hcheb : wc = "CHEBFUN" → 2 ≤ npUniqueSize points)
    (L : LagrangeApproximation n) (hL : LagrangeApproximation.new points wc sw sr dupl fv = .ok L)
    (ext : ExternalQuad) (numQuad : String)
    (hnq : numQuad ∈ ["LEGENDRE_NUMPY", "LEGENDRE_SCIPY", "FEJER"])
    (hext : numQuad ≠ "FEJER" → ext.Exact) (intervals : Fin r → ℝ × ℝ) :
    ∃ Q, L.getIntegrationMatrix ext intervals numQuad = .ok Q ∧
      ∀ p : ℝ[X], p.degree < npUniqueSize points → ∀ i,
        (Q *ᵥ Spec.vals p points) i = ∫ t in (intervals i).1..(intervals i).2, p.eval t := by
  obtain ⟨hS, -, hWF⟩ := new_spec hL
  have hWF := hWF hp hcheb
  obtain ⟨rep, hrep⟩ := hS.exists_rep
  obtain ⟨rule, hrule, hex⟩ := quadRule_exact ext numQuad n hn hnq hext
  have hle : npUniqueSize points ≤ n := by
    unfold npUniqueSize
    exact Finset.card_image_le.trans (by simp)
  refine ⟨_, by rw [getIntegrationMatrix, hrule]; rfl, fun p hdeg i => ?_⟩
  have hdegU : p.degree < L.nUniquePoints := by rw [hS.nUnique]; exact hdeg
  rw [hrep.mulVec_rep hWF.inj]
  have h := integrationU_exact hWF rule.2.1 rule.2.2 (fun q hq => hex q (lt_of_lt_of_le hq (by
    rw [hS.nUnique]; exact_mod_cast hle))) intervals p hdegU i
  rw [← Spec.polyInt, ← h]
  refine Finset.sum_congr rfl fun u _ => ?_
  rw [Spec.vals, ← hrep.points_rep, hS.points_eq]

/-- C04: for increasing points `getIntegrationMatrix(intervals, numQuad)` returns a matrix that maps
the nodal values of every polynomial of degree `< n` to its integrals over the intervals (any real
bounds, also reversed), for every weight option; the two external Gauss-Legendre routines are
assumed exact up to degree `2m - 1`, the built-in FEJER rule needs no assumption. -/
theorem C04_integration_exact {n r : ℕ} (points : Fin n → ℝ) (hp : StrictMono points) (hn : 0 < n)
    (wc : String) (sw : Bool) (sr dupl : String) (fv) (hcheb : wc = "CHEBFUN" → 2 ≤ n)
    (L : LagrangeApproximation n) (hL : LagrangeApproximation.new points wc sw sr dupl fv = .ok L)
    (ext : ExternalQuad) (numQuad : String)
    (hnq : numQuad ∈ ["LEGENDRE_NUMPY", "LEGENDRE_SCIPY", "FEJER"])
    (hext : numQuad ≠ "FEJER" → ext.Exact) (intervals : Fin r → ℝ × ℝ) :
    ∃ Q, L.getIntegrationMatrix ext intervals numQuad = .ok Q ∧
      ∀ p : ℝ[X], p.degree < n → ∀ i,
        (Q *ᵥ Spec.vals p points) i = ∫ t in (intervals i).1..(intervals i).2, p.eval t := by
  have hm : npUniqueSize points = n := (npUniqueSize_eq_iff points).mpr hp.injective
  have h := integration_exact_general points hn (Or.inl hp) wc sw sr dupl fv (by rwa [hm]) L hL
    ext numQuad hnq hext intervals
  rwa [hm] at h

/-- C04 (errors): any other quadrature name raises `NotImplementedError`. -/
theorem C04_unknown_rule {n r : ℕ} (L : LagrangeApproximation n) (ext : ExternalQuad)
    (numQuad : String) (hnq : numQuad ∉ ["LEGENDRE_NUMPY", "LEGENDRE_SCIPY", "FEJER"])
    (intervals : Fin r → ℝ × ℝ) :
    L.getIntegrationMatrix ext intervals numQuad = .error .notImplementedError := by
  simp only [List.mem_cons, List.not_mem_nil, or_false, not_or] at hnq
  obtain ⟨h1, h2, h3⟩ := hnq
  simp [getIntegrationMatrix, quadRule, h1, h2, h3, bind, Except.bind]

/-- Instance: a misspelt rule. -/
example {n : ℕ} (L : LagrangeApproximation n) (ext : ExternalQuad) :
    L.getIntegrationMatrix ext ![((0:ℝ), (2:ℝ))] "LEGENDRE" = .error .notImplementedError :=
  C04_unknown_rule L ext "LEGENDRE" (by decide) _

/-- C04 (the quadrature rules are interchangeable): all rules give the same matrix. -/
theorem C04_rules_agree {n r : ℕ} (points : Fin n → ℝ) (hp : StrictMono points) (hn : 0 < n)
    (wc : String) (sw : Bool) (sr dupl : String) (fv) (hcheb : wc = "CHEBFUN" → 2 ≤ n)
    (L : LagrangeApproximation n) (hL : LagrangeApproximation.new points wc sw sr dupl fv = .ok L)
    (ext : ExternalQuad) (hext : ext.Exact) (numQuad numQuad' : String)
    (hnq : numQuad ∈ ["LEGENDRE_NUMPY", "LEGENDRE_SCIPY", "FEJER"])
    (hnq' : numQuad' ∈ ["LEGENDRE_NUMPY", "LEGENDRE_SCIPY", "FEJER"])
    (intervals : Fin r → ℝ × ℝ) :
    L.getIntegrationMatrix ext intervals numQuad =
      L.getIntegrationMatrix ext intervals numQuad' := by
  obtain ⟨Q, hQ, hex⟩ := C04_integration_exact points hp hn wc sw sr dupl fv hcheb L hL ext numQuad
    hnq (fun _ => hext) intervals
  obtain ⟨Q', hQ', hex'⟩ := C04_integration_exact points hp hn wc sw sr dupl fv hcheb L hL ext
    numQuad' hnq' (fun _ => hext) intervals
  rw [hQ, hQ']
  congr 1
  ext i j
  have hdeg : (Lagrange.basis Finset.univ points j).degree < n := by
    rw [Lagrange.degree_basis hp.injective.injOn (Finset.mem_univ j), Finset.card_univ,
      Fintype.card_fin]
    exact_mod_cast Nat.sub_lt j.pos Nat.one_pos
  have hv : Spec.vals (Lagrange.basis Finset.univ points j) points = Pi.single j 1 := by
    ext k
    by_cases hk : k = j
    · subst hk
      simp [Spec.vals, Lagrange.eval_basis_self hp.injective.injOn]
    · simp [Spec.vals, hk, Lagrange.eval_basis_of_ne (Ne.symm hk)]
  have a := hex _ hdeg i
  have a' := hex' _ hdeg i
  rw [hv, Matrix.mulVec_single_one] at a a'
  exact a.trans a'.symm

/-- Instance: two points, one interval, default options. -/
example (ext : ExternalQuad) (hext : ext.Exact) : ∃ L, LagrangeApproximation.new ![(0:ℝ), 1] = .ok L ∧
    L.getIntegrationMatrix ext ![((0:ℝ), (2:ℝ))] "FEJER" =
      L.getIntegrationMatrix ext ![((0:ℝ), (2:ℝ))] "LEGENDRE_NUMPY" := by
  obtain ⟨L, hL⟩ := C01_constructor_total (by norm_num) ![(0:ℝ), 1] "AUTO" false "MAX" "USE_LEFT"
    ⟨by decide, by decide, by decide, by decide⟩
  exact ⟨L, hL, C04_rules_agree ![(0:ℝ), 1] (Fin.strictMono_iff_lt_succ.mpr fun i => by fin_cases i; simp) (by norm_num)
    _ _ _ _ _ (by decide) L hL ext hext "FEJER" "LEGENDRE_NUMPY" (by decide) (by decide) _⟩

/-- C09 (integration): with duplicated points, in any order, the integration matrix is exact on
polynomials of degree smaller than the number of distinct points. -/
theorem C09_duplicates_integration_exact {n m r : ℕ} (points : Fin n → ℝ)
    (hdup : ¬ Function.Injective points) (hm : Nat.card (Set.range points) = m)
    (wc : String) (sw : Bool) (sr dupl : String) (fv) (hcheb : wc = "CHEBFUN" → 2 ≤ m)
    (L : LagrangeApproximation n) (hL : LagrangeApproximation.new points wc sw sr dupl fv = .ok L)
    (ext : ExternalQuad) (numQuad : String)
    (hnq : numQuad ∈ ["LEGENDRE_NUMPY", "LEGENDRE_SCIPY", "FEJER"])
    (hext : numQuad ≠ "FEJER" → ext.Exact) (intervals : Fin r → ℝ × ℝ) :
    ∃ Q, L.getIntegrationMatrix ext intervals numQuad = .ok Q ∧
      ∀ p : ℝ[X], p.degree < m → ∀ i,
        (Q *ᵥ Spec.vals p points) i = ∫ t in (intervals i).1..(intervals i).2, p.eval t := by
  have hn : 0 < n := by
    rcases Nat.eq_zero_or_pos n with rfl | h
    · exact absurd (Function.injective_of_subsingleton points) hdup
    · exact h
  have : npUniqueSize points = m := by
    rw [← hm, npUniqueSize, ← Set.ncard_coe_finset, ← Nat.card_coe_set_eq]
    simp
  subst this
  exact integration_exact_general points hn (Or.inr hdup) wc sw sr dupl fv hcheb L hL ext numQuad
    hnq hext intervals

/-- Instance: the points `[1, 0, 1]`, the line `X` over `[0, 2]`. -/
example (ext : ExternalQuad) : ∃ L Q, LagrangeApproximation.new ![(1:ℝ), 0, 1] = .ok L ∧
    L.getIntegrationMatrix ext ![((0:ℝ), (2:ℝ))] "FEJER" = .ok Q ∧ (Q *ᵥ Spec.vals X ![(1:ℝ), 0, 1]) 0 = 2 := by
  obtain ⟨L, hL⟩ := C01_constructor_total (by norm_num) ![(1:ℝ), 0, 1] "AUTO" false "MAX" "USE_LEFT"
    ⟨by decide, by decide, by decide, by decide⟩
  have hdup : ¬ Function.Injective ![(1:ℝ), 0, 1] := fun h => by
    have : (0 : Fin 3) = 2 := h rfl
    simp at this
  have hcard : Nat.card (Set.range ![(1:ℝ), 0, 1]) = 2 := by
    have : Set.range ![(1:ℝ), 0, 1] = {1, 0} := by
      ext x
      simp only [Matrix.range_cons, Matrix.range_empty, Set.mem_union, Set.mem_singleton_iff, Set.mem_insert_iff,
        Set.mem_empty_iff_false]
      tauto
    rw [this, Nat.card_coe_set_eq, Set.ncard_pair one_ne_zero]
  obtain ⟨Q, hQ, h⟩ := C09_duplicates_integration_exact _ hdup hcard _ _ _ _ _ (by simp) L hL ext "FEJER" (by decide)
    (by simp) ![((0:ℝ), (2:ℝ))]
  refine ⟨L, Q, hL, hQ, (h X (by rw [degree_X]; norm_num) 0).trans ?_⟩
  simp
  norm_num

/-- C09 (integration, columns): the column of an unused copy is zero: with `USE_LEFT` the copies
after the first, with `USE_RIGHT` the copies before the last. -/
theorem C09_duplicates_integration_columns {n r : ℕ} (points : Fin n → ℝ)
    (wc : String) (sw : Bool) (sr dupl : String) (fv)
    (L : LagrangeApproximation n) (hL : LagrangeApproximation.new points wc sw sr dupl fv = .ok L)
    (ext : ExternalQuad) (numQuad : String) (intervals : Fin r → ℝ × ℝ)
    (Q) (hQ : L.getIntegrationMatrix ext intervals numQuad = .ok Q) (j : Fin n) :
    (dupl = "USE_LEFT" → (∃ j' < j, points j' = points j) → ∀ i, Q i j = 0) ∧
    (dupl = "USE_RIGHT" → (∃ j', j < j' ∧ points j' = points j) → ∀ i, Q i j = 0) := by
  obtain ⟨hS, -, -⟩ := new_spec hL
  have hQ' : ∃ M : Matrix (Fin r) (Fin L.nUniquePoints) ℝ, Q = L.handleDuplicates M := by
    unfold getIntegrationMatrix at hQ
    simp only [bind, Except.bind, pure, Except.pure] at hQ
    split at hQ
    · cases hQ
    · cases hQ; exact ⟨_, rfl⟩
  obtain ⟨M, rfl⟩ := hQ'
  have key : ∀ {j' : Fin n}, j' ≠ j → points j' = points j → ¬ Function.Injective points :=
    fun hne he hinj => hne (hinj he)
  constructor
  · rintro hd ⟨j', hlt, he⟩ i
    obtain ⟨h, -, hcol⟩ := dup_columns (key hlt.ne he) (npUnique_strictMono points)
      (range_npUnique points) hS
    exact ((hcol M i j _ (npUnique_inverse points j).symm).1 hd).1 ⟨j', hlt, he⟩
  · rintro hd ⟨j', hlt, he⟩ i
    obtain ⟨h, -, hcol⟩ := dup_columns (key hlt.ne' he) (npUnique_strictMono points)
      (range_npUnique points) hS
    exact ((hcol M i j _ (npUnique_inverse points j).symm).2 hd).1 ⟨j', hlt, he⟩

/-- C04 applies: points `0, 1`, the integral of `1 + t` from `0` to `2`. -/
example (ext : ExternalQuad) : ∃ L Q, LagrangeApproximation.new ![(0:ℝ), 1] = .ok L ∧
    L.getIntegrationMatrix ext ![((0:ℝ), (2:ℝ))] = .ok Q ∧
      (Q *ᵥ Spec.vals (1 + X) ![0, 1]) 0 = 4 := by
  have hq : StrictMono ![(0:ℝ), 1] := by
    refine Fin.strictMono_iff_lt_succ.mpr fun i => ?_
    fin_cases i; simp
  obtain ⟨L, hL⟩ := C01_constructor_total (by norm_num) ![(0:ℝ), 1] "AUTO" false "MAX" "USE_LEFT"
    ⟨by decide, by decide, by decide, by decide⟩
  obtain ⟨Q, hQ, hex⟩ := C04_integration_exact ![(0:ℝ), 1] hq (by norm_num) _ _ _ _ _
    (by decide) L hL ext "FEJER" (by decide) (fun h => absurd rfl h) ![((0:ℝ), (2:ℝ))]
  refine ⟨L, Q, hL, hQ, ?_⟩
  rw [hex (1 + X) ?_ 0]
  · have := polyInt_one 0 2
    have h2 := polyInt_X_pow 1 0 2
    have h3 := polyInt_add 1 (X ^ 1) 0 2
    rw [this, h2, pow_one] at h3
    simp only [Spec.polyInt] at h3
    simp only [Matrix.cons_val_zero]
    rw [h3]; norm_num
  · refine lt_of_le_of_lt (b := ((1:ℕ) : WithBot ℕ)) ?_ (by norm_num)
    compute_degree
    exact le_rfl

end QMat
