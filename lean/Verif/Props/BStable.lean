import Verif.Lemmas.BStable
import Verif.Props.AStable

/-!
# C78: Legendre collocation on nonlinear problems: quadratic invariants and contractivity
-/

namespace QMat

open Polynomial Spec NodesGenerator Matrix

/-- C78, `GAUSS`: the coefficients are symplectic. -/
theorem C78_gauss_symplectic {M : ℕ} (c : Collocation M) (hc : Collocation.new M "LEGENDRE" "GAUSS" 0 1 = .ok c)
    (hun : Unmoved "LEGENDRE" "GAUSS" c) (i j : Fin M) :
    c.weights i * c.Q i j + c.weights j * c.Q j i = c.weights i * c.weights j := by
  obtain ⟨x', hM, h⟩ := collocation_spec hc
  have h0 := collocation_symplectic hM (h.strictMono (by norm_num)).injective (h.Q_exact (by norm_num))
    ((legendre_quadUpper c hc hun).2.2 rfl)
  have := congrFun (congrFun h0 i) j
  simp only [stabMatrix, of_apply, Matrix.zero_apply] at this
  linarith

/-- C78, `GAUSS`: a step on `u' = f(t, u)`, in any vector space and with any step size, keeps every quadratic form that the
equation keeps. -/
theorem C78_gauss_invariants {M : ℕ} (c : Collocation M) (hc : Collocation.new M "LEGENDRE" "GAUSS" 0 1 = .ok c)
    (hun : Unmoved "LEGENDRE" "GAUSS" c) {E : Type*} [AddCommGroup E] [Module ℝ E]
    (B : LinearMap.BilinForm ℝ E) (hB : ∀ x y, B x y = B y x) (f : ℝ → E → E) (hf : ∀ t x, B x (f t x) = 0)
    (t h : ℝ) (u u1 : E) (Y : Fin M → E) (hu : RKStep c.nodes c.Q c.weights f t h u Y u1) : B u1 u1 = B u u := by
  refine step_invariant ?_ B hB hf hu
  ext i j
  have := C78_gauss_symplectic c hc hun i j
  simp only [stabMatrix, of_apply, Matrix.zero_apply]
  linarith

/-- Instance: three Gauss nodes, the norm of a rotating point. -/
example (u u1 : ℝ × ℝ) (Y : Fin 3 → ℝ × ℝ) : ∃ c : Collocation 3, Collocation.new 3 "LEGENDRE" "GAUSS" 0 1 = .ok c ∧
    (RKStep c.nodes c.Q c.weights (fun (_ : ℝ) (u : ℝ × ℝ) => (-u.2, u.1)) 0 1 u Y u1 →
      u1.1 * u1.1 + u1.2 * u1.2 = u.1 * u.1 + u.2 * u.2) := by
  obtain ⟨c, hc⟩ := collocation_new_ok (M := 3) (nt := "LEGENDRE") (qt := "GAUSS") (by decide)
    (by decide) ⟨by norm_num, fun h => by simp at h⟩ 0 1
  refine ⟨c, hc, fun h => ?_⟩
  let B : LinearMap.BilinForm ℝ (ℝ × ℝ) := LinearMap.mk₂ ℝ (fun x y => x.1 * y.1 + x.2 * y.2)
    (fun _ _ _ => by simp; ring) (fun _ _ _ => by simp; ring) (fun _ _ _ => by simp; ring) (fun _ _ _ => by simp; ring)
  exact C78_gauss_invariants c hc (unmoved_small (by norm_num) c hc) B (fun x y => by simp [B]; ring) _
    (fun t x => by simp [B]; ring) 0 1 u u1 Y h

/-- C78, `GAUSS` and `RADAU-RIGHT`: the coefficients are algebraically stable. -/
theorem C78_algebraic {M : ℕ} {qt : String} (hqt : qt = "GAUSS" ∨ qt = "RADAU-RIGHT") (c : Collocation M)
    (hc : Collocation.new M "LEGENDRE" qt 0 1 = .ok c) (hun : Unmoved "LEGENDRE" qt c) :
    (∀ i, 0 < c.weights i) ∧ ∀ v : Fin M → ℝ,
      0 ≤ ∑ i, ∑ j, (c.weights i * c.Q i j + c.weights j * c.Q j i - c.weights i * c.weights j) * (v i * v j) := by
  obtain ⟨x', hM, h⟩ := collocation_spec hc
  exact ⟨C71_weights_pos c hc hun, collocation_algebraic hM (h.strictMono (by norm_num)).injective
    (h.Q_exact (by norm_num)) (h.weights_exact (by norm_num)) ((legendre_quadUpper c hc hun).2.1 hqt)⟩

/-- Instance: four Radau nodes. -/
example : ∃ c : Collocation 4, Collocation.new 4 "LEGENDRE" "RADAU-RIGHT" 0 1 = .ok c ∧ ∀ i, 0 < c.weights i := by
  obtain ⟨c, hc⟩ := collocation_new_ok (M := 4) (nt := "LEGENDRE") (qt := "RADAU-RIGHT") (by decide)
    (by decide) ⟨by norm_num, fun _ => by norm_num⟩ 0 1
  exact ⟨c, hc, (C78_algebraic (Or.inr rfl) c hc (unmoved_small (by norm_num) c hc)).1⟩

/-- C78, `GAUSS` and `RADAU-RIGHT`: steps on a dissipative equation in any inner product space, with any step size, do not
increase the distance of two solutions. -/
theorem C78_contractive {M : ℕ} {qt : String} (hqt : qt = "GAUSS" ∨ qt = "RADAU-RIGHT") (c : Collocation M)
    (hc : Collocation.new M "LEGENDRE" qt 0 1 = .ok c) (hun : Unmoved "LEGENDRE" qt c)
    {E : Type*} [NormedAddCommGroup E] [InnerProductSpace ℝ E]
    (f : ℝ → E → E) (hf : ∀ t x y, inner ℝ (f t x - f t y) (x - y) ≤ 0) (t h : ℝ) (hh : 0 ≤ h) (u v u1 v1 : E)
    (Y Z : Fin M → E) (hu : RKStep c.nodes c.Q c.weights f t h u Y u1)
    (hv : RKStep c.nodes c.Q c.weights f t h v Z v1) : ‖u1 - v1‖ ≤ ‖u - v‖ := by
  obtain ⟨h1, h2⟩ := C78_algebraic hqt c hc hun
  exact step_contractive (fun i => (h1 i).le) h2 hf hh hu hv

/-- Instance: four Radau nodes, two solutions of `u' = -u ^ 3`. -/
example (u v u1 v1 : ℝ) (Y Z : Fin 4 → ℝ) : ∃ c : Collocation 4, Collocation.new 4 "LEGENDRE" "RADAU-RIGHT" 0 1 = .ok c ∧
    (RKStep c.nodes c.Q c.weights (fun _ u : ℝ => -u ^ 3) 0 1 u Y u1 →
      RKStep c.nodes c.Q c.weights (fun _ u : ℝ => -u ^ 3) 0 1 v Z v1 → ‖u1 - v1‖ ≤ ‖u - v‖) := by
  obtain ⟨c, hc⟩ := collocation_new_ok (M := 4) (nt := "LEGENDRE") (qt := "RADAU-RIGHT") (by decide)
    (by decide) ⟨by norm_num, fun _ => by norm_num⟩ 0 1
  refine ⟨c, hc, C78_contractive (Or.inr rfl) c hc (unmoved_small (by norm_num) c hc) _ (fun t x y => ?_) 0 1
    zero_le_one u v u1 v1 Y Z⟩
  simp only [RCLike.inner_apply, conj_trivial]
  nlinarith [mul_nonneg (sq_nonneg (x - y)) (add_nonneg (add_nonneg (sq_nonneg x) (sq_nonneg y)) (sq_nonneg (x + y)))]

/-- The row of `Q` of a node at zero is zero. -/
theorem zero_row {M : ℕ} {nt qt : String} (c : Collocation M) (hc : Collocation.new M nt qt 0 1 = .ok c) {i : Fin M}
    (hi : c.nodes i = 0) (j : Fin M) : c.Q i j = 0 := by
  classical
  obtain ⟨x', hM, h⟩ := collocation_spec hc
  have hinj := (h.strictMono (by norm_num)).injective
  have := h.Q_exact (by norm_num) (Lagrange.basis Finset.univ c.nodes j) (by
    rw [Lagrange.degree_basis hinj.injOn (Finset.mem_univ j)]
    simp only [Finset.card_univ, Fintype.card_fin]
    exact_mod_cast (by omega : M - 1 < M)) i
  rw [hi] at this
  have e : (c.Q *ᵥ vals (Lagrange.basis Finset.univ c.nodes j) c.nodes) i = c.Q i j := by
    change ∑ k, c.Q i k * _ = _
    rw [Finset.sum_eq_single j]
    · rw [vals, Lagrange.eval_basis_self hinj.injOn (Finset.mem_univ j), mul_one]
    · intro k _ hk
      rw [vals, Lagrange.eval_basis_of_ne hk.symm (Finset.mem_univ k), mul_zero]
    · simp
  rw [← e, this]
  simp [polyInt]

/-- C78, finding: with `LOBATTO` and `RADAU-LEFT` nodes, whatever their number, the distance of two solutions of a
dissipative equation can double in one step of size one, though `LOBATTO` methods are A-stable (C72). -/
theorem C78_left_end_fails {M : ℕ} {qt : String} (hqt : qt = "LOBATTO" ∨ qt = "RADAU-LEFT") (c : Collocation M)
    (hc : Collocation.new M "LEGENDRE" qt 0 1 = .ok c) (hun : Unmoved "LEGENDRE" qt c) :
    ∃ f : ℝ → ℝ → ℝ, (∀ t x y, inner ℝ (f t x - f t y) (x - y) ≤ 0) ∧
      ∃ (u v u1 v1 : ℝ) (Y Z : Fin M → ℝ), RKStep c.nodes c.Q c.weights f 0 1 u Y u1 ∧
        RKStep c.nodes c.Q c.weights f 0 1 v Z v1 ∧ ‖u1 - v1‖ = 2 * ‖u - v‖ ∧ u ≠ v := by
  classical
  obtain ⟨x', hM, h⟩ := collocation_spec hc
  have hinj := (h.strictMono (by norm_num)).injective
  obtain ⟨-, -, hl, -⟩ := C24_collocation_nodes (by norm_num) c hc
  obtain ⟨k, hk⟩ : ∃ k, c.nodes k = 0 := hl (by tauto)
  have hw := C71_weights_pos c hc hun k
  set L := 3 / c.weights k with hL
  have hLp : 0 < L := by positivity
  have hnode : ∀ j, c.nodes j = 0 ↔ j = k := fun j =>
    ⟨fun e => hinj (by rw [e, hk]), fun e => by rw [e, hk]⟩
  refine ⟨fun t y => if t = 0 then -L * y else 0, fun t x y => ?_, 1, 0, -2, 0,
    fun i => 1 + c.Q i k * (-L), fun _ => 0, ?_, ?_, ?_, one_ne_zero⟩
  · simp only [RCLike.inner_apply, conj_trivial]
    split_ifs
    · nlinarith [mul_self_nonneg (x - y)]
    · simp
  · have hf : ∀ (a : Fin M → ℝ), ∑ j, a j • (if 0 + 1 * c.nodes j = 0 then -L * (1 + c.Q j k * (-L)) else 0) =
        a k * (-L) := by
      intro a
      rw [Finset.sum_eq_single k]
      · rw [zero_add, one_mul, if_pos hk, zero_row c hc hk, zero_mul, add_zero, mul_one, smul_eq_mul]
      · intro j _ hj
        rw [zero_add, one_mul, if_neg (fun e => hj ((hnode j).mp e)), smul_zero]
      · simp
    refine ⟨fun i => ?_, ?_⟩
    · rw [hf fun j => c.Q i j, one_smul]
    · rw [hf c.weights, one_smul, hL]
      field_simp
      norm_num
  · refine ⟨fun i => ?_, ?_⟩ <;> simp
  · norm_num

/-- C78, instance: the implicit midpoint rule, as `GAUSS` collocation with one node, on the rotation `u' = (-u_2, u_1)`,
which keeps the norm. -/
example : ∃ c : Collocation 1, Collocation.new 1 "LEGENDRE" "GAUSS" 0 1 = .ok c ∧ Unmoved "LEGENDRE" "GAUSS" c ∧
    ∃ Y u1, RKStep c.nodes c.Q c.weights (fun (_ : ℝ) (u : ℝ × ℝ) => (-u.2, u.1)) 0 1 (1, 0) Y u1 ∧
      u1.1 ^ 2 + u1.2 ^ 2 = 1 := by
  obtain ⟨c, hc⟩ := collocation_new_ok (M := 1) (nt := "LEGENDRE") (qt := "GAUSS") (by decide)
    (by decide) ⟨by norm_num, fun h => by simp at h⟩ 0 1
  have hun := unmoved_small (by norm_num) c hc
  refine ⟨c, hc, hun, ?_⟩
  have hs := C78_gauss_symplectic c hc hun 0 0
  have hw := C71_weights_pos c hc hun 0
  have hw1 : c.weights 0 = 1 := by
    have := (C23_collocation_row_sums (by norm_num) c hc).2.1
    simpa using this
  have hQ : c.Q 0 0 = 1 / 2 := by rw [hw1] at hs; linarith
  refine ⟨fun _ => (4 / 5, 2 / 5), (3 / 5, 4 / 5), ⟨fun i => ?_, ?_⟩, by norm_num⟩
  · obtain rfl : i = 0 := Subsingleton.elim _ _
    ext <;> simp [hQ] <;> norm_num
  · ext <;> simp [hw1] <;> norm_num

end QMat
