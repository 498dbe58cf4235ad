import Verif.Props.Stiff
import Verif.Props.BConvergence

/-!
# C118: one step of collocation on stiff equations with a smooth solution
-/

namespace QMat

open Polynomial Spec NodesGenerator Matrix

section poly

variable {M : ℕ} {x : Fin M → ℝ}

/-- Polynomials of degree at most `M` that vanish at `0`, twice if `0` is one of the points. -/
def stiffSpace (x : Fin M → ℝ) : Submodule ℝ ℝ[X] where
  carrier := {D | D.natDegree ≤ M ∧ D.eval 0 = 0 ∧ ∀ i, x i = 0 → (derivative D).eval 0 = 0}
  add_mem' := fun {a b} ha hb => ⟨(natDegree_add_le _ _).trans (max_le ha.1 hb.1), by simp [ha.2.1, hb.2.1],
    fun i hi => by simp [ha.2.2 i hi, hb.2.2 i hi]⟩
  zero_mem' := by simp
  smul_mem' := fun r a ha => ⟨(natDegree_smul_le _ _).trans ha.1, by simp [ha.2.1], fun i hi => by simp [ha.2.2 i hi]⟩

/-- They are determined by their values at the points. -/
theorem stiffSpace_eq_zero (hx : Function.Injective x) {D : ℝ[X]} (hD : D ∈ stiffSpace x) (h : ∀ i, D.eval (x i) = 0) :
    D = 0 := by
  classical
  by_contra hne
  obtain ⟨hdeg, h0, h1⟩ := hD
  have hroots : (Finset.univ.image x).val + {0} ≤ D.roots := by
    rw [Multiset.le_iff_count]
    intro a
    rw [count_roots, Multiset.count_add, Multiset.count_singleton, Multiset.count_eq_of_nodup (Finset.nodup _)]
    by_cases ha : a ∈ (Finset.univ.image x).val
    · rw [if_pos ha]
      rw [Finset.mem_val, Finset.mem_image] at ha
      obtain ⟨i, -, rfl⟩ := ha
      have hr : 0 < D.rootMultiplicity (x i) := (rootMultiplicity_pos hne).2 (h i)
      by_cases hz : x i = 0
      · rw [if_pos hz]
        have : 1 < D.rootMultiplicity (x i) := (one_lt_rootMultiplicity_iff_isRoot hne).2 ⟨h i, by
          rw [hz]; exact h1 i hz⟩
        omega
      · rw [if_neg hz]; omega
    · rw [if_neg ha, zero_add]
      split
      · next hz => subst hz; exact (rootMultiplicity_pos hne).2 h0
      · exact Nat.zero_le _
  have h2 := (Multiset.card_le_card hroots).trans (card_roots' D)
  rw [Multiset.card_add, Multiset.card_singleton, Finset.card_val, Finset.card_image_of_injective _ hx, Finset.card_univ,
    Fintype.card_fin] at h2
  omega

/-- Linear functionals of such polynomials are bounded by their values at the points. -/
theorem stiffSpace_bound (hx : Function.Injective x) (L : ℝ[X] →ₗ[ℝ] ℝ) :
    ∃ C : ℝ, 0 ≤ C ∧ ∀ D ∈ stiffSpace x, ∀ m : ℝ, (∀ i, |D.eval (x i)| ≤ m) → |L D| ≤ C * m := by
  classical
  let V : stiffSpace x →ₗ[ℝ] (Fin M → ℝ) :=
    { toFun := fun D i => (D : ℝ[X]).eval (x i)
      map_add' := fun a b => by funext i; simp
      map_smul' := fun r a => by funext i; simp }
  have hV : LinearMap.ker V = ⊥ := by
    rw [LinearMap.ker_eq_bot']
    intro D hD
    exact Subtype.ext (stiffSpace_eq_zero hx D.2 fun i => congrFun hD i)
  obtain ⟨g, hg⟩ := V.exists_leftInverse_of_injective hV
  refine ⟨∑ i, |(L ∘ₗ (stiffSpace x).subtype ∘ₗ g) (Pi.single i 1)|, Finset.sum_nonneg fun i _ => abs_nonneg _,
    fun D hD m hm => ?_⟩
  have e : L D = (L ∘ₗ (stiffSpace x).subtype ∘ₗ g) (V ⟨D, hD⟩) := by
    have : g (V ⟨D, hD⟩) = ⟨D, hD⟩ := LinearMap.congr_fun hg ⟨D, hD⟩
    simp [this]
  rw [e, LinearMap.pi_apply_eq_sum_univ, Finset.sum_mul]
  refine (Finset.abs_sum_le_sum_abs _ _).trans (Finset.sum_le_sum fun i _ => ?_)
  rw [smul_eq_mul, abs_mul, mul_comm]
  have h1 : (fun j => if i = j then (1:ℝ) else 0) = Pi.single i 1 := by
    funext j; simp [Pi.single_apply, eq_comm]
  rw [h1]
  exact mul_le_mul_of_nonneg_left (hm i) (abs_nonneg _)

/-- The value at one and the derivatives at the points are bounded by the values at the points. -/
theorem stiffSpace_bounds (hx : Function.Injective x) :
    ∃ C : ℝ, 0 ≤ C ∧ ∀ D ∈ stiffSpace x, ∀ m : ℝ, 0 ≤ m → (∀ i, |D.eval (x i)| ≤ m) →
      |D.eval 1| ≤ C * m ∧ ∀ j, |(derivative D).eval (x j)| ≤ C * m := by
  obtain ⟨C1, h1, hC1⟩ := stiffSpace_bound hx (leval 1)
  choose C2 h2 hC2 using fun j => stiffSpace_bound hx (leval (x j) ∘ₗ derivative)
  refine ⟨C1 + ∑ j, C2 j, add_nonneg h1 (Finset.sum_nonneg fun j _ => h2 j), fun D hD m hm0 hm => ⟨?_, fun j => ?_⟩⟩
  · refine (hC1 D hD m hm).trans (mul_le_mul_of_nonneg_right ?_ hm0)
    linarith [Finset.sum_nonneg fun j (_ : j ∈ Finset.univ) => h2 j]
  · refine (hC2 j D hD m hm).trans (mul_le_mul_of_nonneg_right ?_ hm0)
    linarith [Finset.single_le_sum (fun j _ => h2 j) (Finset.mem_univ j)]

/-- They take any values at the points that are not `0`. -/
theorem stiffSpace_exists (hx : Function.Injective x) (v : Fin M → ℝ) (hv : ∀ i, x i = 0 → v i = 0) :
    ∃ D ∈ stiffSpace x, ∀ i, D.eval (x i) = v i := by
  classical
  set p := Lagrange.interpolate Finset.univ x (fun i => v i / x i) with hp
  have hpd : p.degree < M := by
    have := Lagrange.degree_interpolate_lt (s := Finset.univ) (fun i => v i / x i) (v := x) hx.injOn
    rwa [Finset.card_univ, Fintype.card_fin] at this
  have hpe : ∀ i, p.eval (x i) = v i / x i := fun i =>
    Lagrange.eval_interpolate_at_node (fun i => v i / x i) hx.injOn (Finset.mem_univ i)
  refine ⟨X * p, ⟨?_, by simp, fun i hi => ?_⟩, fun i => ?_⟩
  · by_cases hp0 : p = 0
    · simp [hp0]
    · rw [natDegree_mul X_ne_zero hp0, natDegree_X]
      have := (natDegree_lt_iff_degree_lt hp0).2 hpd
      omega
  · have := hpe i
    rw [hi, div_zero] at this
    simp [this]
  · rw [eval_mul, eval_X, hpe]
    by_cases hi : x i = 0
    · rw [hv i hi, hi]; simp
    · field_simp

end poly

/-- The bounds for the nodes of a collocation, with the polynomial of given slopes at the nodes. -/
theorem coll_stiffSpace {M : ℕ} {nt qt : String} (c : Collocation M) (hc : Collocation.new M nt qt 0 1 = .ok c) :
    0 < M ∧ Function.Injective c.nodes ∧ ∀ G : Fin M → ℝ, ∃ U : ℝ[X], U.natDegree ≤ M ∧ U.eval 0 = 0 ∧
      (∀ i, (derivative U).eval (c.nodes i) = G i) ∧ (∀ i, U.eval (c.nodes i) = ∑ j, c.Q i j * G j) ∧
      U.eval 1 = ∑ j, c.weights j * G j := by
  obtain ⟨x', hM, hs⟩ := collocation_spec hc
  exact ⟨hM, (hs.strictMono (by norm_num)).injective,
    coll_poly (hs.strictMono (by norm_num)).injective (hs.Q_exact (by norm_num)) (hs.weights_exact (by norm_num))⟩

/-- A linear system `E = z Q E + r` is solvable for large `z`. -/
theorem stiff_solvable {M : ℕ} {nt qt : String} (c : Collocation M) (hc : Collocation.new M nt qt 0 1 = .ok c) {K : ℝ}
    (hK : ∀ D ∈ stiffSpace c.nodes, ∀ m : ℝ, 0 ≤ m → (∀ i, |D.eval (c.nodes i)| ≤ m) →
      |D.eval 1| ≤ K * m ∧ ∀ j, |(derivative D).eval (c.nodes j)| ≤ K * m) {z : ℝ} (hz : K < |z|) :
    (∀ E : Fin M → ℝ, (∀ i, E i = z * ∑ j, c.Q i j * E j) → E = 0) ∧
    ∀ r : Fin M → ℝ, ∃ E : Fin M → ℝ, ∀ i, E i = z * ∑ j, c.Q i j * E j + r i := by
  obtain ⟨hM, hinj, hU⟩ := coll_stiffSpace c hc
  have huniq : ∀ E : Fin M → ℝ, (∀ i, E i = z * ∑ j, c.Q i j * E j) → E = 0 := by
    intro E hE
    obtain ⟨U, hd, h0, h1, h2, -⟩ := hU fun j => z * E j
    have hUE : ∀ i, U.eval (c.nodes i) = E i := fun i => by
      rw [h2, hE i, Finset.mul_sum]
      exact Finset.sum_congr rfl fun j _ => by ring
    have hmem : U ∈ stiffSpace c.nodes := ⟨hd, h0, fun i hi => by
      have hEi : E i = 0 := by rw [hE i]; simp [zero_row c hc hi]
      have := h1 i
      rwa [hEi, mul_zero, hi] at this⟩
    have : Nonempty (Fin M) := ⟨⟨0, hM⟩⟩
    obtain ⟨i0, hi0⟩ := Finite.exists_max fun i => |E i|
    have h3 := (hK U hmem _ (abs_nonneg (E i0)) fun i => by rw [hUE]; exact hi0 i).2 i0
    rw [h1, abs_mul] at h3
    have h4 : |E i0| = 0 := by
      by_contra hne
      have hpos : 0 < |E i0| := lt_of_le_of_ne (abs_nonneg _) (Ne.symm hne)
      exact absurd (le_of_mul_le_mul_right h3 hpos) (not_le.2 hz)
    funext i
    exact abs_eq_zero.1 (le_antisymm ((hi0 i).trans h4.le) (abs_nonneg _))
  refine ⟨huniq, fun r => ?_⟩
  let f : (Fin M → ℝ) →ₗ[ℝ] (Fin M → ℝ) := LinearMap.id - z • c.Q.mulVecLin
  have hf : ∀ E i, f E i = E i - z * ∑ j, c.Q i j * E j := fun E i => by
    simp [f, Matrix.mulVec, dotProduct]
  have hinjf : Function.Injective f := by
    rw [← LinearMap.ker_eq_bot, LinearMap.ker_eq_bot']
    intro E hE
    refine huniq E fun i => ?_
    have := congrFun hE i
    rw [hf] at this
    exact sub_eq_zero.1 this
  obtain ⟨E, hE⟩ := LinearMap.injective_iff_surjective.1 hinjf r
  refine ⟨E, fun i => ?_⟩
  have := congrFun hE i
  rw [hf] at this
  linarith

/-- C118, every node family and quadrature type: for `u' = lam (u - φ(t)) + φ'(t)`, started on the solution `φ`, a step with
`|lam h|` large exists and is unique, and its result is the polynomial of degree at most `M` through `φ` at the start and at the
nodes (with the slope of `φ` at the start if that is a node), evaluated at the end, up to an error of order `1 / |lam h|`. -/
theorem C118_limit {M : ℕ} {nt qt : String} (c : Collocation M) (hc : Collocation.new M nt qt 0 1 = .ok c) :
    ∃ K : ℝ, 0 ≤ K ∧ ∀ (φ φ' : ℝ → ℝ) (lam t h : ℝ), K < |h * lam| →
      (∃ Y u1, RKStep c.nodes c.Q c.weights (fun t u => lam * (u - φ t) + φ' t) t h (φ t) Y u1 ∧
        ∀ Y' u1', RKStep c.nodes c.Q c.weights (fun t u => lam * (u - φ t) + φ' t) t h (φ t) Y' u1' → Y' = Y ∧ u1' = u1) ∧
      ∀ Y u1, RKStep c.nodes c.Q c.weights (fun t u => lam * (u - φ t) + φ' t) t h (φ t) Y u1 →
        ∀ (P : ℝ[X]) (d : ℝ), P.natDegree ≤ M → P.eval t = φ t → (∀ i, P.eval (t + h * c.nodes i) = φ (t + h * c.nodes i)) →
        (∀ i, c.nodes i = 0 → (derivative P).eval t = φ' t) →
        (∀ i, |h * (φ' (t + h * c.nodes i) - (derivative P).eval (t + h * c.nodes i))| ≤ d) →
        (∀ i, |Y i - φ (t + h * c.nodes i)| ≤ d / (|h * lam| - K)) ∧ |u1 - P.eval (t + h)| ≤ K * d / (|h * lam| - K) := by
  obtain ⟨hM, hinj, hU⟩ := coll_stiffSpace c hc
  obtain ⟨K, hK0, hK⟩ := stiffSpace_bounds hinj
  refine ⟨K, hK0, fun φ φ' lam t h hz => ⟨?_, ?_⟩⟩
  · obtain ⟨huniq, hex⟩ := stiff_solvable c hc hK hz
    obtain ⟨E, hE⟩ := hex fun i => φ t + h * ∑ j, c.Q i j * φ' (t + h * c.nodes j) - φ (t + h * c.nodes i)
    refine ⟨fun i => E i + φ (t + h * c.nodes i), _, ⟨fun i => ?_, rfl⟩, fun Y' u1' hY' => ?_⟩
    · simp only [smul_eq_mul, add_sub_cancel_right, mul_add, Finset.sum_add_distrib]
      rw [hE i, Finset.mul_sum, Finset.mul_sum]
      have : ∀ j, h * (c.Q i j * (lam * E j)) = h * lam * (c.Q i j * E j) := fun j => by ring
      simp only [Finset.mul_sum, this]
      ring
    · have hY : Y' = fun i => E i + φ (t + h * c.nodes i) := by
        have := huniq (fun i => Y' i - (E i + φ (t + h * c.nodes i))) fun i => by
          have h1 := hY'.stages i
          simp only [smul_eq_mul, mul_add, Finset.sum_add_distrib] at h1
          have h2 := hE i
          have h3 : ∑ j, c.Q i j * (Y' j - (E j + φ (t + h * c.nodes j))) =
              ∑ j, c.Q i j * (Y' j - φ (t + h * c.nodes j)) - ∑ j, c.Q i j * E j := by
            rw [← Finset.sum_sub_distrib]
            exact Finset.sum_congr rfl fun j _ => by ring
          have h4 : ∑ j, c.Q i j * (lam * (Y' j - φ (t + h * c.nodes j))) =
              lam * ∑ j, c.Q i j * (Y' j - φ (t + h * c.nodes j)) := by
            rw [Finset.mul_sum]
            exact Finset.sum_congr rfl fun j _ => by ring
          rw [h3]
          rw [h4] at h1
          linear_combination h1 - h2
        funext i
        have h5 := congrFun this i
        simp only [Pi.zero_apply] at h5
        linarith
      exact ⟨hY, by rw [hY'.result, hY]⟩
  · intro Y u1 hY P d hPd hP0 hP hP' hd
    obtain ⟨U, hd', h0, h1, h2, h3⟩ := hU fun j => h * (lam * (Y j - φ (t + h * c.nodes j)) + φ' (t + h * c.nodes j))
    set D := C (φ t) + U - P.comp (C t + C h * X) with hD
    have hcomp : (P.comp (C t + C h * X)).natDegree ≤ M := by
      refine (natDegree_comp_le).trans ((Nat.mul_le_mul hPd ?_).trans (mul_one M).le)
      refine (natDegree_add_le _ _).trans (max_le (by simp) ?_)
      exact (natDegree_C_mul_le _ _).trans natDegree_X_le
    have hDdeg : D.natDegree ≤ M :=
      (natDegree_sub_le _ _).trans (max_le ((natDegree_add_le _ _).trans (max_le (by simp) hd')) hcomp)
    have hDe : ∀ s, D.eval s = φ t + U.eval s - P.eval (t + h * s) := fun s => by simp [hD]
    have hDd : ∀ s, (derivative D).eval s = (derivative U).eval s - h * (derivative P).eval (t + h * s) := fun s => by
      simp [hD, derivative_comp]
    have hYi : ∀ i, Y i = φ t + U.eval (c.nodes i) := fun i => by
      rw [h2, hY.stages i]
      simp only [smul_eq_mul, Finset.mul_sum]
      congr 1
      exact Finset.sum_congr rfl fun j _ => by ring
    have hu1 : u1 = φ t + U.eval 1 := by
      rw [h3, hY.result]
      simp only [smul_eq_mul, Finset.mul_sum]
      congr 1
      exact Finset.sum_congr rfl fun j _ => by ring
    have hDi : ∀ i, D.eval (c.nodes i) = Y i - φ (t + h * c.nodes i) := fun i => by rw [hDe, ← hYi, hP]
    have hDdi : ∀ i, (derivative D).eval (c.nodes i) = h * lam * (Y i - φ (t + h * c.nodes i)) +
        h * (φ' (t + h * c.nodes i) - (derivative P).eval (t + h * c.nodes i)) := fun i => by
      rw [hDd, h1]; ring
    have hmem : D ∈ stiffSpace c.nodes := by
      refine ⟨hDdeg, by rw [hDe, h0, mul_zero, add_zero, add_zero, hP0, sub_self], fun i hi => ?_⟩
      have hYφ : Y i = φ t := by rw [hYi, hi, h0, add_zero]
      have := hDdi i
      rw [hi, mul_zero, add_zero, hYφ, hP' i hi] at this
      rw [this]; ring
    have : Nonempty (Fin M) := ⟨⟨0, hM⟩⟩
    obtain ⟨i0, hi0⟩ := Finite.exists_max fun i => |Y i - φ (t + h * c.nodes i)|
    set m := |Y i0 - φ (t + h * c.nodes i0)| with hm
    obtain ⟨hb1, hb2⟩ := hK D hmem m (abs_nonneg _) fun i => by rw [hDi]; exact hi0 i
    have hm1 : |h * lam| * m ≤ K * m + d := by
      have e1 := hb2 i0
      have e2 := hd i0
      rw [hDdi] at e1
      have e3 : |h * lam * (Y i0 - φ (t + h * c.nodes i0))| = |h * lam| * m := abs_mul _ _
      rw [← e3]
      have e4 := abs_sub (h * lam * (Y i0 - φ (t + h * c.nodes i0)) +
        h * (φ' (t + h * c.nodes i0) - (derivative P).eval (t + h * c.nodes i0)))
        (h * (φ' (t + h * c.nodes i0) - (derivative P).eval (t + h * c.nodes i0)))
      rw [add_sub_cancel_right] at e4
      linarith
    have hpos : 0 < |h * lam| - K := by linarith
    have hm2 : m ≤ d / (|h * lam| - K) := by
      rw [le_div_iff₀ hpos]; linarith
    refine ⟨fun i => (hi0 i).trans hm2, ?_⟩
    have e5 : u1 - P.eval (t + h) = D.eval 1 := by rw [hDe, hu1, mul_one]
    rw [e5, mul_div_assoc]
    exact hb1.trans (mul_le_mul_of_nonneg_left hm2 hK0)

/-- The Taylor polynomial of the step, in the time of the nodes. -/
theorem taylor_poly (M : ℕ) (D : ℕ → ℝ → ℝ) (t h : ℝ) : ∃ T : ℝ[X], T.natDegree ≤ M ∧
    (∀ x, T.eval x = ∑ k ∈ Finset.range (M + 1), ((h * x) ^ k / k.factorial) • D k t) ∧
    ∀ x, (derivative T).eval x = h * ∑ k ∈ Finset.range M, ((h * x) ^ k / k.factorial) • D (k + 1) t := by
  refine ⟨∑ k ∈ Finset.range (M + 1), C (h ^ k / k.factorial * D k t) * X ^ k, ?_, fun x => ?_, fun x => ?_⟩
  · refine natDegree_sum_le_of_forall_le _ _ fun k hk => (natDegree_C_mul_X_pow_le _ _).trans ?_
    have := Finset.mem_range.1 hk
    omega
  · rw [eval_finsetSum]
    refine Finset.sum_congr rfl fun k _ => ?_
    simp only [eval_mul, eval_C, eval_pow, eval_X, smul_eq_mul, mul_pow]
    ring
  · rw [derivative_sum, eval_finsetSum, Finset.sum_range_succ', Finset.mul_sum]
    simp only [derivative_C_mul, derivative_X_pow, eval_mul, eval_C, eval_pow, eval_X, smul_eq_mul, mul_pow, eval_natCast,
      Nat.cast_zero, zero_mul, mul_zero, add_zero, Nat.add_sub_cancel, map_natCast]
    refine Finset.sum_congr rfl fun k _ => ?_
    rw [Nat.factorial_succ, pow_succ]
    have : (k.factorial : ℝ) ≠ 0 := by exact_mod_cast k.factorial_ne_zero
    have : ((k:ℝ) + 1) ≠ 0 := by positivity
    push_cast
    field_simp

/-- The polynomial through a smooth function at the start and at the nodes, with a bound of the slopes. -/
theorem stiff_interpolant {M : ℕ} {x : Fin M → ℝ} (hx : Function.Injective x) (hM : 0 < M) (hx01 : ∀ i, 0 ≤ x i ∧ x i ≤ 1) {K : ℝ}
    (hK : ∀ D ∈ stiffSpace x, ∀ m : ℝ, 0 ≤ m → (∀ i, |D.eval (x i)| ≤ m) →
      |D.eval 1| ≤ K * m ∧ ∀ j, |(derivative D).eval (x j)| ≤ K * m) (D : ℕ → ℝ → ℝ) {t h S : ℝ} (hh : 0 < h)
    (hD : ∀ k < M + 1, ∀ s ∈ Set.Icc t (t + h), HasDerivWithinAt (D k) (D (k + 1) s) (Set.Icc t (t + h)) s)
    (hS : ∀ s ∈ Set.Icc t (t + h), |D (M + 1) s| ≤ S) :
    ∃ P : ℝ[X], P.natDegree ≤ M ∧ P.eval t = D 0 t ∧ (∀ i, P.eval (t + h * x i) = D 0 (t + h * x i)) ∧
      (∀ i, x i = 0 → (derivative P).eval t = D 1 t) ∧
      ∀ i, |h * (D 1 (t + h * x i) - (derivative P).eval (t + h * x i))| ≤ (1 + K) * (S * h ^ (M + 1)) := by
  obtain ⟨T, hT1, hT2, hT3⟩ := taylor_poly M D t h
  have hS0 : 0 ≤ S := (abs_nonneg _).trans (hS t ⟨le_refl _, by linarith⟩)
  have hhx : ∀ i, h * x i ∈ Set.Icc 0 h := fun i =>
    ⟨mul_nonneg hh.le (hx01 i).1, by nlinarith [mul_le_mul_of_nonneg_left (hx01 i).2 hh.le]⟩
  have hpow : ∀ (n : ℕ) i, (h * x i) ^ n / n.factorial ≤ h ^ n := fun n i => by
    have h1 : (h * x i) ^ n ≤ h ^ n := pow_le_pow_left₀ (hhx i).1 (hhx i).2 n
    have h2 : (1:ℝ) ≤ n.factorial := by exact_mod_cast n.factorial_pos
    exact (div_le_self (pow_nonneg (hhx i).1 n) h2).trans h1
  have hR0 : ∀ i, |D 0 (t + h * x i) - T.eval (x i)| ≤ S * h ^ (M + 1) := fun i => by
    rw [hT2]
    have := taylor_chain (M + 1) D hD (by simpa using hS) (h * x i) (hhx i)
    rw [Real.norm_eq_abs] at this
    exact this.trans (mul_le_mul_of_nonneg_left (hpow _ i) hS0)
  have hR1 : ∀ i, |h * (D 1 (t + h * x i)) - (derivative T).eval (x i)| ≤ S * h ^ (M + 1) := fun i => by
    rw [hT3, ← mul_sub, abs_mul, abs_of_pos hh]
    have := taylor_chain M (fun k => D (k + 1)) (t := t) (h := h) (K := S) (fun k hk => hD (k + 1) (by omega))
      (by simpa using hS) (h * x i) (hhx i)
    rw [Real.norm_eq_abs] at this
    calc h * |D 1 (t + h * x i) - ∑ k ∈ Finset.range M, ((h * x i) ^ k / k.factorial) • D (k + 1) t|
        ≤ h * (S * h ^ M) := mul_le_mul_of_nonneg_left (this.trans (mul_le_mul_of_nonneg_left (hpow _ i) hS0)) hh.le
      _ = S * h ^ (M + 1) := by ring
  have hT0 : T.eval 0 = D 0 t := by
    rw [hT2, Finset.sum_range_succ']
    simp
  have hT0' : (derivative T).eval 0 = h * D 1 t := by
    obtain ⟨n, rfl⟩ : ∃ n, M = n + 1 := ⟨M - 1, by omega⟩
    rw [hT3, Finset.sum_range_succ']
    simp
  obtain ⟨R, hRm, hR⟩ := stiffSpace_exists hx (fun i => D 0 (t + h * x i) - T.eval (x i)) fun i hi => by
    rw [hi, mul_zero, add_zero, hT0, sub_self]
  obtain ⟨-, hRd⟩ := hK R hRm (S * h ^ (M + 1)) (by positivity) fun i => by rw [hR]; exact hR0 i
  have hne : h ≠ 0 := hh.ne'
  refine ⟨(T + R).comp (C h⁻¹ * (X - C t)), ?_, ?_, fun i => ?_, fun i hi => ?_, fun i => ?_⟩
  · refine natDegree_comp_le.trans ((Nat.mul_le_mul ((natDegree_add_le _ _).trans (max_le hT1 hRm.1)) ?_).trans (mul_one M).le)
    exact (natDegree_C_mul_le _ _).trans (natDegree_X_sub_C_le t)
  · simp [hT0, hRm.2.1]
  · have e : h⁻¹ * (t + h * x i - t) = x i := by field_simp; ring
    simp only [eval_comp, eval_mul, eval_C, eval_sub, eval_X, e, eval_add, hR]
    ring
  · simp only [derivative_comp, eval_mul, eval_comp, eval_C, eval_sub, eval_X, sub_self, mul_zero, derivative_add, eval_add, hT0',
      hRm.2.2 i hi, derivative_mul, derivative_C, derivative_sub, derivative_X, zero_mul, zero_add, sub_zero, eval_one]
    field_simp
    ring
  · have e : h⁻¹ * (t + h * x i - t) = x i := by field_simp; ring
    have e2 : h * (D 1 (t + h * x i) - (derivative ((T + R).comp (C h⁻¹ * (X - C t)))).eval (t + h * x i)) =
        (h * D 1 (t + h * x i) - (derivative T).eval (x i)) - (derivative R).eval (x i) := by
      simp only [derivative_comp, eval_mul, eval_comp, eval_C, eval_sub, eval_X, derivative_add, eval_add, e,
        derivative_mul, derivative_C, derivative_sub, derivative_X, zero_mul, zero_add, sub_zero, mul_one]
      field_simp
      ring
    rw [e2]
    refine (abs_sub _ _).trans ?_
    have h1 := hR1 i
    have h2 := hRd i
    linarith

/-- C118, `RADAU-RIGHT` and `LOBATTO`, every node family: the error of one step from the solution is at most
`K S h^(M+1) / (|lam h| - K)`, where `S` bounds the derivative of order `M + 1` of the solution: the stiffer the equation, the
smaller the error. -/
theorem C118_end_node {M : ℕ} {nt qt : String} (hqt : qt = "RADAU-RIGHT" ∨ qt = "LOBATTO") (c : Collocation M)
    (hc : Collocation.new M nt qt 0 1 = .ok c) :
    ∃ K : ℝ, 0 ≤ K ∧ ∀ (D : ℕ → ℝ → ℝ) (lam t h S : ℝ), 0 < h → K < |h * lam| →
      (∀ k < M + 1, ∀ s ∈ Set.Icc t (t + h), HasDerivWithinAt (D k) (D (k + 1) s) (Set.Icc t (t + h)) s) →
      (∀ s ∈ Set.Icc t (t + h), |D (M + 1) s| ≤ S) → ∀ Y u1,
      RKStep c.nodes c.Q c.weights (fun t u => lam * (u - D 0 t) + D 1 t) t h (D 0 t) Y u1 →
      |u1 - D 0 (t + h)| ≤ K * (S * h ^ (M + 1)) / (|h * lam| - K) := by
  obtain ⟨hM, hinj, -⟩ := coll_stiffSpace c hc
  obtain ⟨-, hx01, -, hr⟩ := C24_collocation_nodes (by norm_num) c hc
  obtain ⟨e, he⟩ := hr hqt (Or.inr (by norm_num))
  obtain ⟨K, hK0, hlim⟩ := C118_limit c hc
  obtain ⟨K', hK0', hK'⟩ := stiffSpace_bounds hinj
  refine ⟨K * (1 + K') + K, by positivity, fun D lam t h S hh hz hD hS Y u1 hY => ?_⟩
  have hS0 : 0 ≤ S := (abs_nonneg _).trans (hS t ⟨le_refl _, by linarith⟩)
  have hKK : 0 ≤ K * (1 + K') := by positivity
  obtain ⟨P, hP1, hP2, hP3, hP4, hP5⟩ := stiff_interpolant hinj hM hx01 hK' D hh hD hS
  have := ((hlim (D 0) (D 1) lam t h (by linarith)).2 Y u1 hY P _ hP1 hP2 hP3 hP4 hP5).2
  have e1 : P.eval (t + h) = D 0 (t + h) := by
    have := hP3 e
    rwa [he, mul_one] at this
  rw [e1] at this
  refine this.trans ?_
  have hp : 0 ≤ S * h ^ (M + 1) := by positivity
  have h1 : 0 < |h * lam| - (K * (1 + K') + K) := by linarith
  have h2 : |h * lam| - (K * (1 + K') + K) ≤ |h * lam| - K := by linarith
  rw [← mul_assoc]
  exact div_le_div₀ (by positivity) (mul_le_mul_of_nonneg_right (by linarith) hp) h1 h2

/-- C118 (negative), no node at the right end (`GAUSS`, `RADAU-LEFT`): the error of one step on a stiff equation with solution
`t^(M+1)` is at least `γ h^(M+1)` for every step size, where `γ` does not depend on it: the order of the method is lost. -/
theorem C118_order_fails {M : ℕ} {nt qt : String} (c : Collocation M) (hc : Collocation.new M nt qt 0 1 = .ok c)
    (h1 : ∀ i, c.nodes i ≠ 1) : ∃ γ : ℝ, 0 < γ ∧ ∀ h : ℝ, 0 < h → ∃ B : ℝ, ∀ lam ≤ -B, ∃ Y u1,
      RKStep c.nodes c.Q c.weights (fun t u => lam * (u - t ^ (M + 1)) + (M + 1) * t ^ M) 0 h 0 Y u1 ∧
      γ * h ^ (M + 1) ≤ |u1 - h ^ (M + 1)| := by
  classical
  obtain ⟨hM, hinj, -⟩ := coll_stiffSpace c hc
  obtain ⟨-, hx01, -, -⟩ := C24_collocation_nodes (by norm_num) c hc
  obtain ⟨K, hK0, hlim⟩ := C118_limit c hc
  set γ := ∏ i, (1 - c.nodes i) with hγ
  have hγ0 : 0 < γ := Finset.prod_pos fun i _ => sub_pos.2 (lt_of_le_of_ne (hx01 i).2 (h1 i))
  refine ⟨γ / 2, by positivity, fun h hh => ?_⟩
  set N : ℝ[X] := X * ∏ i, (X - C (h * c.nodes i)) with hN
  set P : ℝ[X] := X ^ (M + 1) - N with hP
  have hNm : N.Monic := monic_X.mul (monic_prod_of_monic _ _ fun i _ => monic_X_sub_C _)
  have hNd : N.natDegree = M + 1 := by
    rw [hN, natDegree_mul X_ne_zero (monic_prod_of_monic _ _ fun i _ => monic_X_sub_C _).ne_zero, natDegree_X,
      natDegree_prod_of_monic _ _ fun i _ => monic_X_sub_C _]
    simp only [natDegree_X_sub_C, Finset.sum_const, Finset.card_univ, Fintype.card_fin, smul_eq_mul, mul_one]
    omega
  have hPd : P.natDegree ≤ M := by
    have : P.degree < (X ^ (M + 1) : ℝ[X]).degree := by
      refine degree_sub_lt_left ?_ (monic_X_pow _).ne_zero ?_
      · rw [degree_X_pow, degree_eq_natDegree hNm.ne_zero, hNd]
      · rw [(monic_X_pow _).leadingCoeff, hNm.leadingCoeff]
    rw [degree_X_pow] at this
    by_cases hP0 : P = 0
    · simp [hP0]
    · exact Nat.lt_succ_iff.1 ((natDegree_lt_iff_degree_lt hP0).2 this)
  have hPe : ∀ s, P.eval s = s ^ (M + 1) - s * ∏ i, (s - h * c.nodes i) := fun s => by
    simp [hP, hN, eval_prod]
  obtain ⟨d, hd⟩ : ∃ d : ℝ, ∀ i, |h * ((M + 1) * (0 + h * c.nodes i) ^ M - (derivative P).eval (0 + h * c.nodes i))| ≤ d := by
    refine ⟨∑ i, |h * ((M + 1) * (0 + h * c.nodes i) ^ M - (derivative P).eval (0 + h * c.nodes i))|, fun i => ?_⟩
    exact Finset.single_le_sum (f := fun i => |h * ((M + 1) * (0 + h * c.nodes i) ^ M - (derivative P).eval (0 + h * c.nodes i))|)
      (fun i _ => abs_nonneg _) (Finset.mem_univ i)
  have hd0 : 0 ≤ d := (abs_nonneg _).trans (hd ⟨0, hM⟩)
  have hpw : 0 < h ^ (M + 1) := by positivity
  refine ⟨(K + 1 + 2 * K * d / (γ * h ^ (M + 1))) / h, fun lam hl => ?_⟩
  have hz : K + 1 + 2 * K * d / (γ * h ^ (M + 1)) ≤ |h * lam| := by
    have e1 : (K + 1 + 2 * K * d / (γ * h ^ (M + 1))) / h ≤ -lam := by linarith
    rw [div_le_iff₀ hh] at e1
    have e2 : -lam * h ≤ |h * lam| := by
      rw [show -lam * h = -(h * lam) by ring]; exact neg_le_abs _
    linarith
  have hKz : K < |h * lam| := by
    have : 0 ≤ 2 * K * d / (γ * h ^ (M + 1)) := by positivity
    linarith
  obtain ⟨⟨Y, u1, hY, -⟩, hb⟩ := hlim (fun t => t ^ (M + 1)) (fun t => (M + 1) * t ^ M) lam 0 h hKz
  have hb := (hb Y u1 hY P d hPd (by rw [hPe]; simp) (fun i => by
      rw [hPe, Finset.prod_eq_zero (Finset.mem_univ i) (by ring)]; ring) (fun i hi => by
      obtain ⟨Z, hZ⟩ : ∃ Z : ℝ[X], ∏ i, (X - C (h * c.nodes i)) = X * Z := by
        refine ⟨∏ j ∈ Finset.univ.erase i, (X - C (h * c.nodes j)), ?_⟩
        rw [← Finset.mul_prod_erase _ _ (Finset.mem_univ i), hi]
        simp
      have hM' : M ≠ 0 := by omega
      rw [hP, hN, hZ]
      simp [hM']) hd).2
  refine ⟨Y, u1, by simpa using hY, ?_⟩
  have hPh : P.eval (0 + h) = h ^ (M + 1) - γ * h ^ (M + 1) := by
    rw [zero_add, hPe]
    have : ∏ i, (h - h * c.nodes i) = h ^ M * γ := by
      rw [hγ]
      have : ∀ i, h - h * c.nodes i = h * (1 - c.nodes i) := fun i => by ring
      simp only [this, Finset.prod_mul_distrib, Finset.prod_const, Finset.card_univ, Fintype.card_fin]
    rw [this]; ring
  rw [hPh] at hb
  have hsmall : K * d / (|h * lam| - K) ≤ γ * h ^ (M + 1) / 2 := by
    rw [div_le_iff₀ (by linarith)]
    have e3 : 2 * K * d / (γ * h ^ (M + 1)) ≤ |h * lam| - K := by linarith
    rw [div_le_iff₀ (by positivity)] at e3
    linarith
  have hb2 := hb.trans hsmall
  have e4 := neg_abs_le (u1 - (h ^ (M + 1) - γ * h ^ (M + 1)))
  have e5 := neg_le_abs (u1 - h ^ (M + 1))
  have e6 := le_abs_self (u1 - (h ^ (M + 1) - γ * h ^ (M + 1)))
  linarith

/-- C118 (negative), Legendre `GAUSS` and `RADAU-LEFT` with two or more nodes: no constant bounds the error of one
step by `h^(p+1)`, `p` the declared order, for all stiff equations with solution `t^(M+1)`. -/
theorem C118_declared_order_fails {M : ℕ} {qt : String} (hM2 : 2 ≤ M) (hM : M ≤ 158)
    (hqt : qt = "GAUSS" ∨ qt = "RADAU-LEFT") (c : Collocation M)
    (hc : Collocation.new M "LEGENDRE" qt 0 1 = .ok c) :
    ∃ p, c.order = some p ∧ ∀ C : ℝ, ∃ h lam : ℝ, 0 < h ∧ h ≤ 1 ∧ lam < 0 ∧ ∃ Y u1,
      RKStep c.nodes c.Q c.weights (fun t u => lam * (u - t ^ (M + 1)) + (M + 1) * t ^ M) 0 h 0 Y u1 ∧
      C * h ^ (p + 1) < |u1 - h ^ (M + 1)| := by
  have h1 := (legendre_ends_small hM c hc).2 hqt
  obtain ⟨γ, hγ, hb⟩ := C118_order_fails c hc h1
  obtain ⟨x', hM0, hs⟩ := collocation_spec hc
  obtain ⟨p, hp, hMp⟩ : ∃ p, c.order = some p ∧ M < p := by
    unfold Collocation.order
    rw [hs.nodeType, hs.quadType]
    rcases hqt with rfl | rfl
    · exact ⟨2 * M, by simp, by omega⟩
    · exact ⟨2 * M - 1, by rw [if_neg (by simp), if_neg (by simp), if_pos (by decide)], by omega⟩
  refine ⟨p, hp, fun C => ?_⟩
  have hC : 0 < |C| + γ + 1 := by positivity
  set h := γ / (|C| + γ + 1) with hh
  have hh0 : 0 < h := by positivity
  have hh1 : h ≤ 1 := by
    rw [hh, div_le_one hC]
    linarith [abs_nonneg C]
  obtain ⟨B, hB⟩ := hb h hh0
  obtain ⟨Y, u1, hY, he⟩ := hB (-(|B| + 1)) (by linarith [le_abs_self B])
  refine ⟨h, -(|B| + 1), hh0, hh1, by linarith [abs_nonneg B], Y, u1, hY, lt_of_lt_of_le ?_ he⟩
  have e1 : h ^ (p + 1) ≤ h ^ (M + 2) := pow_le_pow_of_le_one hh0.le hh1 (by omega)
  have e2 : |C| * h < γ := by
    rw [hh, mul_div_assoc', div_lt_iff₀ hC]
    nlinarith [abs_nonneg C]
  have e3 : 0 < h ^ (M + 1) := by positivity
  calc C * h ^ (p + 1) ≤ |C| * h ^ (p + 1) := mul_le_mul_of_nonneg_right (le_abs_self C) (by positivity)
    _ ≤ |C| * h ^ (M + 2) := mul_le_mul_of_nonneg_left e1 (abs_nonneg C)
    _ = |C| * h * h ^ (M + 1) := by ring
    _ < γ * h ^ (M + 1) := mul_lt_mul_of_pos_right e2 e3

/-- Instance of `C118_limit`: two Gauss nodes and `φ = t^2`, which is its own polynomial: the step is exact. -/
example : ∃ c : Collocation 2, Collocation.new 2 "LEGENDRE" "GAUSS" 0 1 = .ok c ∧ ∃ K : ℝ, ∀ lam : ℝ, K < |1 * lam| →
    ∃ Y u1, RKStep c.nodes c.Q c.weights (fun t u => lam * (u - t ^ 2) + 2 * t) 0 1 (0 ^ 2) Y u1 ∧ u1 = 1 := by
  obtain ⟨c, hc⟩ := collocation_new_ok (M := 2) (nt := "LEGENDRE") (qt := "GAUSS") (by decide)
    (by decide) ⟨by norm_num, fun h => by simp at h⟩ 0 1
  obtain ⟨K, -, h⟩ := C118_limit c hc
  refine ⟨c, hc, K, fun lam hl => ?_⟩
  obtain ⟨⟨Y, u1, hY, -⟩, hb⟩ := h (fun t => t ^ 2) (fun t => 2 * t) lam 0 1 hl
  refine ⟨Y, u1, hY, ?_⟩
  have := (hb Y u1 hY (X ^ 2) 0 (by simp) (by simp) (fun i => by simp) (fun i _ => by simp) (fun i => by simp; ring)).2
  simp only [zero_add, eval_pow, eval_X, one_pow, mul_zero, zero_div] at this
  have := abs_nonpos_iff.1 this
  linarith

/-- Instance of `C118_end_node`: three Radau nodes and the solution `exp`. -/
example : ∃ c : Collocation 3, Collocation.new 3 "LEGENDRE" "RADAU-RIGHT" 0 1 = .ok c ∧ ∃ K : ℝ, ∀ lam : ℝ, K < |1 / 2 * lam| →
    ∀ Y u1, RKStep c.nodes c.Q c.weights (fun t u => lam * (u - Real.exp t) + Real.exp t) 0 (1 / 2) (Real.exp 0) Y u1 →
      |u1 - Real.exp (0 + 1 / 2)| ≤ K * (Real.exp 1 * (1 / 2) ^ 4) / (|1 / 2 * lam| - K) := by
  obtain ⟨c, hc⟩ := collocation_new_ok (M := 3) (nt := "LEGENDRE") (qt := "RADAU-RIGHT") (by decide)
    (by decide) ⟨by norm_num, fun _ => by norm_num⟩ 0 1
  obtain ⟨K, -, h⟩ := C118_end_node (Or.inl rfl) c hc
  refine ⟨c, hc, K, fun lam hl Y u1 hY => h (fun _ => Real.exp) lam 0 (1 / 2) (Real.exp 1) (by norm_num) hl
    (fun k _ s _ => (Real.hasDerivAt_exp s).hasDerivWithinAt) (fun s hs => ?_) Y u1 hY⟩
  rw [abs_of_pos (Real.exp_pos s)]
  exact Real.exp_le_exp.2 (by linarith [hs.2])

/-- Instance of `C118_declared_order_fails`: two Gauss nodes, order 4. -/
example : ∃ c : Collocation 2, Collocation.new 2 "LEGENDRE" "GAUSS" 0 1 = .ok c ∧ ∃ p, c.order = some p ∧
    ∃ h lam : ℝ, 0 < h ∧ lam < 0 ∧ ∃ Y u1,
      RKStep c.nodes c.Q c.weights (fun t u => lam * (u - t ^ 3) + ((2:ℕ) + 1) * t ^ 2) 0 h 0 Y u1 ∧
      10 ^ 6 * h ^ (p + 1) < |u1 - h ^ 3| := by
  obtain ⟨c, hc⟩ := collocation_new_ok (M := 2) (nt := "LEGENDRE") (qt := "GAUSS") (by decide)
    (by decide) ⟨by norm_num, fun h => by simp at h⟩ 0 1
  obtain ⟨p, hp, h⟩ := C118_declared_order_fails le_rfl (by norm_num) (Or.inl rfl) c hc
  obtain ⟨h, lam, h0, -, hl, Y, u1, hY, he⟩ := h (10 ^ 6)
  exact ⟨c, hc, p, hp, h, lam, h0, hl, Y, u1, hY, he⟩

end QMat
