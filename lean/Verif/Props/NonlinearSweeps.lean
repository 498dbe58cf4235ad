import Verif.Props.BConvergence
import Verif.Props.ParallelSweeps

/-!
# C119: parallel implicit Euler sweeps on dissipative nonlinear equations
-/

namespace QMat

open Polynomial Spec NodesGenerator Matrix

variable {M : ℕ} {E : Type*} [NormedAddCommGroup E] [InnerProductSpace ℝ E]

/-- Averages of the slopes up to the nodes minus the slopes are not larger than the slopes, in the mean square of the weights. -/
theorem average_contracts {qt : String} (c : Collocation M) (hc : Collocation.new M "LEGENDRE" qt 0 1 = .ok c)
    (hun : Unmoved "LEGENDRE" qt c) (G : Fin M → E) (hG : ∀ i, c.nodes i = 0 → G i = 0) :
    ∑ i, c.weights i * ‖(c.nodes i)⁻¹ • ∑ j, c.Q i j • G j - G i‖ ^ 2 ≤ ∑ i, c.weights i * ‖G i‖ ^ 2 := by
  obtain ⟨x', hM, hs⟩ := collocation_spec hc
  have h := coll_coercive_inner hM (hs.strictMono (by norm_num)).injective (hs.Q_exact (by norm_num))
    (hs.weights_exact (by norm_num)) (legendre_quadUpper c hc hun).1 G hG
  have e : ∀ i, c.weights i * ‖(c.nodes i)⁻¹ • ∑ j, c.Q i j • G j - G i‖ ^ 2 = c.weights i * ‖G i‖ ^ 2 +
      (c.weights i / c.nodes i ^ 2 * ‖∑ j, c.Q i j • G j‖ ^ 2 - 2 * (c.weights i / c.nodes i * inner ℝ (G i) (∑ j, c.Q i j • G j))) :=
    fun i => by
      rw [norm_sub_sq_real, norm_smul, inner_smul_left, real_inner_comm, mul_pow, Real.norm_eq_abs, sq_abs, conj_trivial]
      ring
  simp only [e, Finset.sum_add_distrib, Finset.sum_sub_distrib, ← Finset.mul_sum]
  have h' : 1 / 2 * ∑ i, c.weights i / c.nodes i ^ 2 * ‖∑ j, c.Q i j • G j‖ ^ 2 ≤
    ∑ i, c.weights i / c.nodes i * inner ℝ (G i) (∑ j, c.Q i j • G j) := h
  linarith

/-- An implicit Euler step on a dissipative equation is possible. -/
theorem euler_exists [CompleteSpace E] {f : E → E} (hf : ∀ x y, inner ℝ (f x - f y) (x - y) ≤ 0) {L : ℝ}
    (hL : ∀ x y, ‖f x - f y‖ ≤ L * ‖x - y‖) {s : ℝ} (hs : 0 ≤ s) (r : E) : ∃ y, y = r + s • f y := by
  obtain ⟨Y, hY⟩ := stages_exist (M := 1) (E := E) (x := fun _ => 1) (A := 1) (κ := 1) zero_le_one (fun G η d _ h1 h2 i => by
      have hi : i = 0 := Subsingleton.elim _ _
      subst hi
      have h1 := h1 0
      simp only [Finset.univ_unique, Finset.sum_singleton, Fin.default_eq_zero, one_apply_eq, one_smul] at h1 ⊢
      have h3 : ‖G 0‖ ≤ 1 * d := by
        rw [one_mul]
        refine le_trans ?_ (h2 0)
        rw [inner_add_right, real_inner_self_eq_norm_sq] at h1
        have h4 := abs_real_inner_le_norm (G 0) (η 0)
        have h5 := neg_abs_le (inner ℝ (G 0) (η 0))
        by_contra h6
        have h7 : ‖η 0‖ < ‖G 0‖ := not_le.1 h6
        have h8 : 0 < ‖G 0‖ := (norm_nonneg _).trans_lt h7
        nlinarith [mul_lt_mul_of_pos_left h7 h8]
      exact ⟨h3, h3⟩)
    (F := fun _ y => s • f y) (fun _ a b => by
      rw [← smul_sub, inner_smul_left, conj_trivial]
      exact mul_nonpos_of_nonneg_of_nonpos hs (hf _ _)) (fun _ h => absurd h one_ne_zero) (L := s * |L|) (by positivity)
    (fun _ a b => by
      rw [← smul_sub, norm_smul, Real.norm_eq_abs, abs_of_nonneg hs, mul_assoc]
      exact mul_le_mul_of_nonneg_left ((hL a b).trans (mul_le_mul_of_nonneg_right (le_abs_self L) (norm_nonneg _))) hs)
    (fun _ => r)
  refine ⟨Y 0, ?_⟩
  have := hY 0
  simpa using this

/-- A sum with a diagonal matrix. -/
theorem diagonal_smul_sum (x : Fin M → ℝ) (v : Fin M → E) (i : Fin M) : ∑ j, diagonal x i j • v j = x i • v i := by
  rw [Finset.sum_eq_single i (fun j _ h => by rw [diagonal_apply_ne _ h.symm, zero_smul]) (by simp), diagonal_apply_eq]

/-- C119: sweeps with `BEPAR`, alias `IEpar`, on `LEGENDRE` nodes of any number and quadrature type, for any dissipative equation in any
inner product space, any step size: compared with the collocation solution, the error of the slopes never grows, in the mean square of
the weights; the errors of the node values after a sweep and of the quadrature update are at most `h` times the error of the slopes;
and if `L` is a Lipschitz constant, the error of the slopes is multiplied by at most `h L / √(1 + h² L²)` in each sweep. -/
theorem C119_sweeps {qt : String} (c : Collocation M) (hc : Collocation.new M "LEGENDRE" qt 0 1 = .ok c)
    (hun : Unmoved "LEGENDRE" qt c) (ext : ExternalNum) (q : Option ℤ) (name : String) (hname : name = "BEPAR" ∨ name = "IEpar")
    (A : Matrix (Fin M) (Fin M) ℝ) (hA : getQD ext name (kwTime c.nodes 0) q = .ok ⟨M, A⟩)
    (f : ℝ → E → E) (hf : ∀ t x y, inner ℝ (f t x - f t y) (x - y) ≤ 0) (t h : ℝ) (hh : 0 ≤ h) (u u1 : E) (Y : Fin M → E)
    (hY : RKStep c.nodes c.Q c.weights f t h u Y u1) (U : ℕ → Fin M → E) (hU0 : ∀ i, c.nodes i = 0 → U 0 i = u)
    (hU : ∀ k i, U (k + 1) i = u + h • ∑ j, A i j • f (t + h * c.nodes j) (U (k + 1) j) +
      h • ∑ j, (c.Q i j - A i j) • f (t + h * c.nodes j) (U k j)) (S : ℕ → ℝ)
    (hS : ∀ k, S k = ∑ i, c.weights i * ‖f (t + h * c.nodes i) (U k i) - f (t + h * c.nodes i) (Y i)‖ ^ 2) :
    (∀ k, S (k + 1) ≤ S k) ∧
    (∀ k, ∑ i, c.weights i * ‖U (k + 1) i - Y i‖ ^ 2 ≤ h ^ 2 * S k) ∧
    (∀ k, ‖u + h • ∑ i, c.weights i • f (t + h * c.nodes i) (U k i) - u1‖ ^ 2 ≤ h ^ 2 * S k) ∧
    ∀ L, (∀ i x y, ‖f (t + h * c.nodes i) x - f (t + h * c.nodes i) y‖ ≤ L * ‖x - y‖) →
      ∀ k, S k ≤ ((h * L) ^ 2 / (1 + (h * L) ^ 2)) ^ k * S 0 := by
  obtain ⟨hM, -, hx0, hx1, hw, hw1, -, -⟩ := parallel_facts c hc hun
  have hAd : A = diagonal c.nodes := by
    rw [bepar_matrix ext c.nodes hM q name hname] at hA
    have := Except.ok.inj hA
    exact (eq_of_heq (Sigma.mk.inj this).2).symm
  set G : ℕ → Fin M → E := fun k i => f (t + h * c.nodes i) (U k i) - f (t + h * c.nodes i) (Y i) with hG
  have hzero : ∀ k i, c.nodes i = 0 → G k i = 0 := by
    intro k i hi
    have hYi : Y i = u := by rw [hY.stages i]; simp [zero_row c hc hi]
    have hUi : U k i = u := by
      cases k with
      | zero => exact hU0 i hi
      | succ k =>
        rw [hU k i, hAd]
        simp only [zero_row c hc hi, zero_sub, neg_smul, Finset.sum_neg_distrib, diagonal_smul_sum, hi, zero_smul, neg_zero, smul_zero,
          add_zero]
    simp only [hG, hYi, hUi, sub_self]
  have herr : ∀ k i, U (k + 1) i - Y i - (h * c.nodes i) • G (k + 1) i =
      (h * c.nodes i) • ((c.nodes i)⁻¹ • ∑ j, c.Q i j • G k j - G k i) := by
    intro k i
    have e1 : U (k + 1) i - Y i = (h * c.nodes i) • G (k + 1) i + h • ∑ j, c.Q i j • G k j - (h * c.nodes i) • G k i := by
      rw [hU k i, hY.stages i, hAd]
      simp only [sub_smul, Finset.sum_sub_distrib, diagonal_smul_sum, hG, smul_sub, mul_smul]
      abel
    rw [e1]
    by_cases hi : c.nodes i = 0
    · have : ∑ j, c.Q i j • G k j = 0 := Finset.sum_eq_zero fun j _ => by
        have := zero_row c hc hi j
        rw [this, zero_smul]
      simp [hi, this]
    · have e2 : (h * c.nodes i) • ((c.nodes i)⁻¹ • ∑ j, c.Q i j • G k j - G k i) =
          h • ∑ j, c.Q i j • G k j - (h * c.nodes i) • G k i := by
        rw [smul_sub (h * c.nodes i) _ (G k i), smul_smul, mul_assoc, mul_inv_cancel₀ hi, mul_one]
      rw [e2]
      abel
  have hnode : ∀ k i, ‖U (k + 1) i - Y i‖ ^ 2 + (h * c.nodes i) ^ 2 * ‖G (k + 1) i‖ ^ 2 ≤
      (h * c.nodes i) ^ 2 * ‖(c.nodes i)⁻¹ • ∑ j, c.Q i j • G k j - G k i‖ ^ 2 := by
    intro k i
    have e2 := congrArg (fun v => ‖v‖ ^ 2) (herr k i)
    simp only [norm_smul, mul_pow, Real.norm_eq_abs, sq_abs] at e2
    rw [norm_sub_sq_real, inner_smul_right, norm_smul, mul_pow, Real.norm_eq_abs, sq_abs] at e2
    have e3 : inner ℝ (U (k + 1) i - Y i) (G (k + 1) i) ≤ 0 := by
      rw [real_inner_comm]; exact hf _ _ _
    have e4 : h * c.nodes i * inner ℝ (U (k + 1) i - Y i) (G (k + 1) i) ≤ 0 :=
      mul_nonpos_of_nonneg_of_nonpos (mul_nonneg hh (hx0 i)) e3
    rw [mul_pow]
    linarith
  have hcontr : ∀ k, ∑ i, c.weights i * ‖(c.nodes i)⁻¹ • ∑ j, c.Q i j • G k j - G k i‖ ^ 2 ≤ S k := fun k => by
    rw [hS]; exact average_contracts c hc hun (G k) (hzero k)
  have hS0 : ∀ k, 0 ≤ S k := fun k => by
    rw [hS]; exact Finset.sum_nonneg fun i _ => mul_nonneg (hw i).le (sq_nonneg _)
  -- the error of the slopes with a factor
  have hfac : ∀ L : ℝ, (∀ i x y, ‖f (t + h * c.nodes i) x - f (t + h * c.nodes i) y‖ ≤ L * ‖x - y‖) → ∀ k i,
      (1 + (h * L) ^ 2) * ‖G (k + 1) i‖ ^ 2 ≤ (h * L) ^ 2 * ‖(c.nodes i)⁻¹ • ∑ j, c.Q i j • G k j - G k i‖ ^ 2 := by
    intro L hL k i
    by_cases hi : c.nodes i = 0
    · rw [hzero (k + 1) i hi]
      rw [norm_zero, zero_pow two_ne_zero, mul_zero]
      exact mul_nonneg (sq_nonneg _) (sq_nonneg _)
    have hxi : 0 < c.nodes i := lt_of_le_of_ne (hx0 i) (Ne.symm hi)
    have h1 := hnode k i
    have h2 : ‖G (k + 1) i‖ ^ 2 ≤ L ^ 2 * ‖U (k + 1) i - Y i‖ ^ 2 := by
      rw [← mul_pow]
      exact pow_le_pow_left₀ (norm_nonneg _) (hL i _ _) 2
    set a := ‖G (k + 1) i‖ ^ 2
    set b := ‖U (k + 1) i - Y i‖ ^ 2
    set d := ‖(c.nodes i)⁻¹ • ∑ j, c.Q i j • G k j - G k i‖ ^ 2
    have ha : 0 ≤ a := sq_nonneg _
    have hb : 0 ≤ b := sq_nonneg _
    have hx2 : c.nodes i ^ 2 ≤ 1 := by nlinarith [hx0 i, hx1 i]
    have hx2' : 0 < c.nodes i ^ 2 := by positivity
    -- a + (h x L)² a ≤ L² (b + (h x)² a) ≤ (h x L)² d
    have h3 : a + (h * L) ^ 2 * c.nodes i ^ 2 * a ≤ (h * L) ^ 2 * c.nodes i ^ 2 * d := by
      have h4 := mul_le_mul_of_nonneg_left h1 (sq_nonneg L)
      have h5 : L ^ 2 * (b + (h * c.nodes i) ^ 2 * a) = L ^ 2 * b + (h * L) ^ 2 * c.nodes i ^ 2 * a := by ring
      have h6 : L ^ 2 * ((h * c.nodes i) ^ 2 * d) = (h * L) ^ 2 * c.nodes i ^ 2 * d := by ring
      rw [h5, h6] at h4
      linarith
    have h7 : c.nodes i ^ 2 * a ≤ a := by
      have := mul_le_mul_of_nonneg_right hx2 ha
      linarith
    have h8 : c.nodes i ^ 2 * ((1 + (h * L) ^ 2) * a) ≤ c.nodes i ^ 2 * ((h * L) ^ 2 * d) := by
      have e1 : c.nodes i ^ 2 * ((1 + (h * L) ^ 2) * a) = c.nodes i ^ 2 * a + (h * L) ^ 2 * c.nodes i ^ 2 * a := by ring
      have e2 : c.nodes i ^ 2 * ((h * L) ^ 2 * d) = (h * L) ^ 2 * c.nodes i ^ 2 * d := by ring
      rw [e1, e2]
      linarith
    exact le_of_mul_le_mul_left h8 hx2'
  refine ⟨fun k => ?_, fun k => ?_, fun k => ?_, fun L hL k => ?_⟩
  · refine le_trans ?_ (hcontr k)
    rw [hS]
    refine Finset.sum_le_sum fun i _ => mul_le_mul_of_nonneg_left ?_ (hw i).le
    have h1 := hnode k i
    by_cases h0 : h * c.nodes i = 0
    · have h2 : U (k + 1) i - Y i = 0 := by
        rw [h0] at h1
        have h3 : ‖U (k + 1) i - Y i‖ ^ 2 ≤ 0 := by linarith
        exact norm_eq_zero.1 (pow_eq_zero_iff two_ne_zero |>.1 (le_antisymm h3 (sq_nonneg _)))
      rw [sub_eq_zero.1 h2, sub_self, norm_zero, zero_pow two_ne_zero]
      exact sq_nonneg _
    · have h2 : 0 < (h * c.nodes i) ^ 2 := by positivity
      refine le_of_mul_le_mul_left (le_trans ?_ h1) h2
      exact le_add_of_nonneg_left (sq_nonneg _)
  · refine le_trans ?_ (mul_le_mul_of_nonneg_left (hcontr k) (sq_nonneg h))
    rw [Finset.mul_sum]
    refine Finset.sum_le_sum fun i _ => ?_
    have h1 := hnode k i
    have hx2 : c.nodes i ^ 2 ≤ 1 := by nlinarith [hx0 i, hx1 i]
    have h2 : ‖U (k + 1) i - Y i‖ ^ 2 ≤ h ^ 2 * ‖(c.nodes i)⁻¹ • ∑ j, c.Q i j • G k j - G k i‖ ^ 2 := by
      have e1 : 0 ≤ (h * c.nodes i) ^ 2 * ‖G (k + 1) i‖ ^ 2 := by positivity
      have e2 : (h * c.nodes i) ^ 2 * ‖(c.nodes i)⁻¹ • ∑ j, c.Q i j • G k j - G k i‖ ^ 2 ≤
          h ^ 2 * ‖(c.nodes i)⁻¹ • ∑ j, c.Q i j • G k j - G k i‖ ^ 2 := by
        refine mul_le_mul_of_nonneg_right ?_ (sq_nonneg _)
        rw [mul_pow]
        exact mul_le_of_le_one_right (sq_nonneg h) hx2
      linarith
    calc c.weights i * ‖U (k + 1) i - Y i‖ ^ 2
        ≤ c.weights i * (h ^ 2 * ‖(c.nodes i)⁻¹ • ∑ j, c.Q i j • G k j - G k i‖ ^ 2) := mul_le_mul_of_nonneg_left h2 (hw i).le
      _ = h ^ 2 * (c.weights i * ‖(c.nodes i)⁻¹ • ∑ j, c.Q i j • G k j - G k i‖ ^ 2) := by ring
  · have e1 : u + h • ∑ i, c.weights i • f (t + h * c.nodes i) (U k i) - u1 = h • ∑ i, c.weights i • G k i := by
      rw [hY.result]
      simp only [hG, smul_sub, Finset.sum_sub_distrib]
      abel
    rw [e1, norm_smul, mul_pow, Real.norm_eq_abs, sq_abs]
    refine mul_le_mul_of_nonneg_left ?_ (sq_nonneg h)
    have h1 : ‖∑ i, c.weights i • G k i‖ ≤ ∑ i, c.weights i * ‖G k i‖ := by
      refine (norm_sum_le _ _).trans (le_of_eq (Finset.sum_congr rfl fun i _ => ?_))
      rw [norm_smul, Real.norm_eq_abs, abs_of_pos (hw i)]
    have h2 : (∑ i, c.weights i * ‖G k i‖) ^ 2 ≤ (∑ i, c.weights i) * ∑ i, c.weights i * ‖G k i‖ ^ 2 :=
      Finset.sum_sq_le_sum_mul_sum_of_sq_le_mul _ (fun i _ => (hw i).le) (fun i _ => mul_nonneg (hw i).le (sq_nonneg _))
        (fun i _ => le_of_eq (by ring))
    rw [hw1, one_mul] at h2
    rw [hS]
    exact (pow_le_pow_left₀ (norm_nonneg _) h1 2).trans h2
  · induction k with
    | zero => simp
    | succ k ih =>
      have hp : 0 < 1 + (h * L) ^ 2 := by positivity
      have h1 : (1 + (h * L) ^ 2) * S (k + 1) ≤ (h * L) ^ 2 * S k := by
        refine le_trans ?_ (mul_le_mul_of_nonneg_left (hcontr k) (sq_nonneg _))
        rw [hS, Finset.mul_sum, Finset.mul_sum]
        refine Finset.sum_le_sum fun i _ => ?_
        have := mul_le_mul_of_nonneg_left (hfac L hL k i) (hw i).le
        calc _ = c.weights i * ((1 + (h * L) ^ 2) * ‖G (k + 1) i‖ ^ 2) := by ring
          _ ≤ _ := this
          _ = _ := by ring
      have h2 : S (k + 1) ≤ (h * L) ^ 2 / (1 + (h * L) ^ 2) * S k := by
        rw [div_mul_eq_mul_div, le_div_iff₀ hp]
        linarith
      refine h2.trans ((mul_le_mul_of_nonneg_left ih (by positivity)).trans (le_of_eq ?_))
      rw [pow_succ]
      ring

/-- C119 (solvability): from any starting values the sweeps can be done, for steps of any size, if the equation is also Lipschitz
continuous in a complete space, and in only one way. -/
theorem C119_solvable [CompleteSpace E] {qt : String} (c : Collocation M) (hc : Collocation.new M "LEGENDRE" qt 0 1 = .ok c)
    (hun : Unmoved "LEGENDRE" qt c) (ext : ExternalNum) (q : Option ℤ) (name : String) (hname : name = "BEPAR" ∨ name = "IEpar")
    (f : ℝ → E → E) (hf : ∀ t x y, inner ℝ (f t x - f t y) (x - y) ≤ 0) (hL : ∀ t, ∃ L, ∀ x y, ‖f t x - f t y‖ ≤ L * ‖x - y‖)
    (t h : ℝ) (hh : 0 ≤ h) (u : E) (V : Fin M → E) :
    ∃ A : Matrix (Fin M) (Fin M) ℝ, getQD ext name (kwTime c.nodes 0) q = .ok ⟨M, A⟩ ∧
      ∃! U : ℕ → Fin M → E, U 0 = V ∧ ∀ k i, U (k + 1) i = u + h • ∑ j, A i j • f (t + h * c.nodes j) (U (k + 1) j) +
        h • ∑ j, (c.Q i j - A i j) • f (t + h * c.nodes j) (U k j) := by
  obtain ⟨hM, -, hx0, hx1, hw, hw1, -, -⟩ := parallel_facts c hc hun
  refine ⟨_, bepar_matrix ext c.nodes hM q name hname, ?_⟩
  simp only [diagonal_smul_sum]
  have hex : ∀ (W : Fin M → E) (i : Fin M), ∃ y, y = (u + h • ∑ j, (c.Q i j - diagonal c.nodes i j) • f (t + h * c.nodes j) (W j)) +
      (h * c.nodes i) • f (t + h * c.nodes i) y := fun W i => by
    obtain ⟨L, hL⟩ := hL (t + h * c.nodes i)
    exact euler_exists (hf _) hL (mul_nonneg hh (hx0 i)) _
  choose step hstep using hex
  refine ⟨fun k => Nat.rec V (fun _ W => step W) k, ⟨rfl, fun k i => ?_⟩, ?_⟩
  · have := hstep (Nat.rec V (fun _ W => step W) k) i
    rw [mul_smul] at this
    refine this.trans ?_
    abel
  · rintro U ⟨h0, hU⟩
    funext k
    induction k with
    | zero => exact h0
    | succ k ih =>
      funext i
      have e1 := hU k i
      rw [ih] at e1
      have e2 := hstep (Nat.rec V (fun _ W => step W) k) i
      change U (k + 1) i = step (Nat.rec V (fun _ W => step W) k) i
      set y := step (Nat.rec V (fun _ W => step W) k) i
      have e3 : U (k + 1) i - y = (h * c.nodes i) • (f (t + h * c.nodes i) (U (k + 1) i) - f (t + h * c.nodes i) y) := by
        rw [smul_sub, mul_smul, mul_smul]
        conv_lhs => rw [e1, e2]
        rw [mul_smul]
        abel
      have e4 : ‖U (k + 1) i - y‖ ^ 2 ≤ 0 := by
        rw [← real_inner_self_eq_norm_sq]
        conv_lhs => arg 2; rw [e3]
        rw [inner_smul_left, conj_trivial]
        exact mul_nonpos_of_nonneg_of_nonpos (mul_nonneg hh (hx0 i)) (hf _ _ _)
      exact sub_eq_zero.1 (norm_eq_zero.1 (pow_eq_zero_iff two_ne_zero |>.1 (le_antisymm e4 (sq_nonneg _))))

/-- C119 (error after sweeps): there is a constant depending only on the coefficients such that after `K` sweeps from copies of the
step's initial value the quadrature update differs from the collocation solution by at most the constant times
`h (h L / √(1 + h² L²))ᴷ` times the size of the slopes at the initial value, for every dissipative equation with Lipschitz constant
`L`, in every inner product space, and every step size. -/
theorem C119_error {qt : String} (c : Collocation M) (hc : Collocation.new M "LEGENDRE" qt 0 1 = .ok c)
    (hun : Unmoved "LEGENDRE" qt c) (ext : ExternalNum) (q : Option ℤ) (name : String) (hname : name = "BEPAR" ∨ name = "IEpar")
    (A : Matrix (Fin M) (Fin M) ℝ) (hA : getQD ext name (kwTime c.nodes 0) q = .ok ⟨M, A⟩) :
    ∃ C : ℝ, 0 ≤ C ∧ ∀ {E : Type*} [NormedAddCommGroup E] [InnerProductSpace ℝ E]
      (f : ℝ → E → E), (∀ t x y, inner ℝ (f t x - f t y) (x - y) ≤ 0) → ∀ (t h L d : ℝ), 0 ≤ h → 0 ≤ L →
      (∀ i x y, ‖f (t + h * c.nodes i) x - f (t + h * c.nodes i) y‖ ≤ L * ‖x - y‖) → ∀ (u u1 : E),
      (∀ i, ‖f (t + h * c.nodes i) u‖ ≤ d) → ∀ (Y : Fin M → E), RKStep c.nodes c.Q c.weights f t h u Y u1 →
      ∀ (U : ℕ → Fin M → E), (∀ i, U 0 i = u) →
      (∀ k i, U (k + 1) i = u + h • ∑ j, A i j • f (t + h * c.nodes j) (U (k + 1) j) +
        h • ∑ j, (c.Q i j - A i j) • f (t + h * c.nodes j) (U k j)) →
      ∀ K, ‖u + h • ∑ i, c.weights i • f (t + h * c.nodes i) (U K i) - u1‖ ≤ C * h * (h * L / √(1 + (h * L) ^ 2)) ^ K * d := by
  obtain ⟨hM, -, hx0, hx1, hw, hw1, -, -⟩ := parallel_facts c hc hun
  obtain ⟨κ, hκ0, hκ⟩ := legendre_stage_bound c hc hun
  set α := ∑ i, ∑ j, |c.Q i j| with hα
  have hα0 : 0 ≤ α := Finset.sum_nonneg fun i _ => Finset.sum_nonneg fun j _ => abs_nonneg _
  refine ⟨κ * α, mul_nonneg hκ0 hα0, ?_⟩
  intro E _ _ f hf t h L d hh hL0 hL u u1 hd Y hY U hU0 hU K
  have hd0 : 0 ≤ d := (norm_nonneg _).trans (hd ⟨0, hM⟩)
  obtain ⟨-, -, h3, h4⟩ := C119_sweeps c hc hun ext q name hname A hA f hf t h hh u u1 Y hY U (fun i _ => hU0 i) hU _ (fun _ => rfl)
  have h5 := h4 L hL K
  have h6 := h3 K
  rcases eq_or_lt_of_le hh with rfl | hpos
  · have h7 : ‖u + (0:ℝ) • ∑ i, c.weights i • f (t + 0 * c.nodes i) (U K i) - u1‖ ^ 2 ≤ 0 := by
      refine h6.trans (le_of_eq ?_); ring
    have h8 := pow_eq_zero_iff two_ne_zero |>.1 (le_antisymm h7 (sq_nonneg _))
    rw [h8]
    simp
  -- the slopes at the stages differ from those at the initial value
  have hG : ∀ i, ‖f (t + h * c.nodes i) (Y i) - f (t + h * c.nodes i) u‖ ≤ κ * (α * d) := by
    intro i
    refine (hκ (fun i => f (t + h * c.nodes i) (Y i) - f (t + h * c.nodes i) u)
      (fun i => ∑ j, c.Q i j • f (t + h * c.nodes j) u) (α * d) (fun i hi => ?_) (fun i => ?_) (fun i => ?_) i).2
    · have : Y i = u := by rw [hY.stages i]; simp [zero_row c hc hi]
      simp only [this, sub_self]
    · have e1 : h • (∑ j, c.Q i j • (f (t + h * c.nodes j) (Y j) - f (t + h * c.nodes j) u) + ∑ j, c.Q i j • f (t + h * c.nodes j) u) =
          Y i - u := by
        rw [← Finset.sum_add_distrib]
        simp only [← smul_add, sub_add_cancel]
        conv_rhs => rw [hY.stages i]
        abel
      have e2 := hf (t + h * c.nodes i) (Y i) u
      rw [← e1, inner_smul_right] at e2
      by_contra hcon
      exact absurd e2 (not_le.2 (mul_pos hpos (not_le.1 hcon)))
    · refine (norm_sum_le _ _).trans ?_
      calc ∑ j, ‖c.Q i j • f (t + h * c.nodes j) u‖ ≤ ∑ j, |c.Q i j| * d := Finset.sum_le_sum fun j _ => by
            rw [norm_smul, Real.norm_eq_abs]; exact mul_le_mul_of_nonneg_left (hd j) (abs_nonneg _)
        _ = (∑ j, |c.Q i j|) * d := by rw [Finset.sum_mul]
        _ ≤ α * d := mul_le_mul_of_nonneg_right
            (Finset.single_le_sum (f := fun i => ∑ j, |c.Q i j|) (fun i _ => Finset.sum_nonneg fun j _ => abs_nonneg _)
              (Finset.mem_univ i)) hd0
  have hS0 : ∑ i, c.weights i * ‖f (t + h * c.nodes i) (U 0 i) - f (t + h * c.nodes i) (Y i)‖ ^ 2 ≤ (κ * (α * d)) ^ 2 := by
    calc _ ≤ ∑ i, c.weights i * (κ * (α * d)) ^ 2 := Finset.sum_le_sum fun i _ => by
          refine mul_le_mul_of_nonneg_left (pow_le_pow_left₀ (norm_nonneg _) ?_ 2) (hw i).le
          rw [hU0, norm_sub_rev]; exact hG i
      _ = _ := by rw [← Finset.sum_mul, hw1, one_mul]
  have hp : 0 < 1 + (h * L) ^ 2 := by positivity
  have hg : (h * L / √(1 + (h * L) ^ 2)) ^ 2 = (h * L) ^ 2 / (1 + (h * L) ^ 2) := by rw [div_pow, Real.sq_sqrt hp.le]
  refine le_of_sq_le_sq ?_ (by positivity)
  refine h6.trans ?_
  calc _ ≤ h ^ 2 * (((h * L) ^ 2 / (1 + (h * L) ^ 2)) ^ K * (κ * (α * d)) ^ 2) :=
        mul_le_mul_of_nonneg_left (h5.trans (mul_le_mul_of_nonneg_left hS0 (by positivity))) (sq_nonneg h)
    _ = _ := by rw [← hg]; ring

/-- The nonlinear equation `u' = -100 (u + max u 0)` meets the hypotheses on five nodes, one of them at zero. -/
example (ext : ExternalNum) : ∃ (c : Collocation 5) (A : Matrix (Fin 5) (Fin 5) ℝ), Collocation.new 5 "LEGENDRE" "LOBATTO" 0 1 = .ok c ∧
    getQD ext "BEPAR" (kwTime c.nodes 0) none = .ok ⟨5, A⟩ ∧ ∃ C : ℝ, ∃ (Y : Fin 5 → ℝ) (u1 : ℝ) (U : ℕ → Fin 5 → ℝ),
      RKStep c.nodes c.Q c.weights (fun _ u => -100 * (u + max u 0)) 0 1 1 Y u1 ∧ (∀ i, U 0 i = 1) ∧
      (∀ k i, U (k + 1) i = 1 + (1 : ℝ) • ∑ j, A i j • (-100 * (U (k + 1) j + max (U (k + 1) j) 0)) +
        (1 : ℝ) • ∑ j, (c.Q i j - A i j) • (-100 * (U k j + max (U k j) 0))) ∧
      ∀ K, |1 + 1 * ∑ i, c.weights i * (-100 * (U K i + max (U K i) 0)) - u1| ≤ C * 1 * (1 * 200 / √(1 + (1 * 200) ^ 2)) ^ K * 200 := by
  obtain ⟨c, hc⟩ := collocation_new_ok (M := 5) (nt := "LEGENDRE") (qt := "LOBATTO") (by decide)
    (by decide) ⟨by norm_num, fun _ => by norm_num⟩ 0 1
  have hun := unmoved_small (by norm_num) c hc
  have hf : ∀ (t x y : ℝ), inner ℝ ((fun (_ : ℝ) (u : ℝ) => -100 * (u + max u 0)) t x - (fun (_ : ℝ) (u : ℝ) => -100 * (u + max u 0)) t y)
      (x - y) ≤ 0 := fun t x y => by
    simp only [RCLike.inner_apply, conj_trivial]
    have h1 : 0 ≤ (x - y) * (max x 0 - max y 0) := by
      rcases le_total x y with h | h
      · exact mul_nonneg_of_nonpos_of_nonpos (by linarith) (by linarith [max_le_max_right 0 h])
      · exact mul_nonneg (by linarith) (by linarith [max_le_max_right 0 h])
    nlinarith [sq_nonneg (x - y)]
  have hLip : ∀ (t x y : ℝ), ‖(fun (_ : ℝ) (u : ℝ) => -100 * (u + max u 0)) t x - (fun (_ : ℝ) (u : ℝ) => -100 * (u + max u 0)) t y‖ ≤
      200 * ‖x - y‖ := fun t x y => by
    have h1 : |max x 0 - max y 0| ≤ |x - y| := by simpa using abs_max_sub_max_le_max x 0 y 0
    have e : -100 * (x + max x 0) - -100 * (y + max y 0) = -100 * ((x - y) + (max x 0 - max y 0)) := by ring
    simp only [Real.norm_eq_abs]
    rw [e, abs_mul]
    have h2 := abs_add_le (x - y) (max x 0 - max y 0)
    norm_num
    linarith
  obtain ⟨A, hA, U, ⟨hU0, hU⟩, -⟩ := C119_solvable c hc hun ext none "BEPAR" (Or.inl rfl) _ hf (fun t => ⟨200, hLip t⟩) 0 1 zero_le_one 1
    (fun _ => 1)
  obtain ⟨⟨Y, u1⟩, hY, -⟩ := C117_solvable c hc hun _ hf (fun t => ⟨200, hLip t⟩) 0 1 zero_le_one 1
  obtain ⟨C, -, H⟩ := C119_error c hc hun ext none "BEPAR" (Or.inl rfl) A hA
  refine ⟨c, A, hc, hA, C, Y, u1, U, hY, fun i => congrFun hU0 i, hU, fun K => ?_⟩
  exact H _ hf 0 1 200 200 zero_le_one (by norm_num) (fun _ => hLip 0) 1 u1 (fun i => by norm_num) Y hY U (fun i => congrFun hU0 i) hU K

/-- C119 (convergence): `N` steps of size `h` with `K` sweeps each and the quadrature update, for `GAUSS` and `RADAU-RIGHT` nodes, on any
dissipative equation with Lipschitz constant `L` in a complete inner product space: a solution whose derivative of order `M + 1` is
bounded by `D'` is missed by at most `C n h (D' h ^ M + (h L / √(1 + h² L²)) ^ K S)`, `S` a bound of the slopes at the computed values; `C`
depends only on the coefficients. -/
theorem C119_convergence {qt : String} (hqt : qt = "GAUSS" ∨ qt = "RADAU-RIGHT") (c : Collocation M)
    (hc : Collocation.new M "LEGENDRE" qt 0 1 = .ok c)
    (hun : Unmoved "LEGENDRE" qt c) (ext : ExternalNum) (q : Option ℤ) (name : String) (hname : name = "BEPAR" ∨ name = "IEpar")
    (A : Matrix (Fin M) (Fin M) ℝ) (hA : getQD ext name (kwTime c.nodes 0) q = .ok ⟨M, A⟩) :
    ∃ C : ℝ, 0 ≤ C ∧ ∀ {E : Type*} [NormedAddCommGroup E] [InnerProductSpace ℝ E] [CompleteSpace E]
      (f : ℝ → E → E), (∀ t x y, inner ℝ (f t x - f t y) (x - y) ≤ 0) → ∀ L : ℝ, 0 ≤ L → (∀ t x y, ‖f t x - f t y‖ ≤ L * ‖x - y‖) →
      ∀ (t0 h D' S : ℝ) (N K : ℕ) (D : ℕ → ℝ → E), 0 ≤ h → 0 ≤ S →
      (∀ k < M + 1, ∀ t ∈ Set.Icc t0 (t0 + N * h), HasDerivWithinAt (D k) (D (k + 1) t) (Set.Icc t0 (t0 + N * h)) t) →
      (∀ t ∈ Set.Icc t0 (t0 + N * h), D 1 t = f t (D 0 t)) → (∀ t ∈ Set.Icc t0 (t0 + N * h), ‖D (M + 1) t‖ ≤ D') →
      ∀ (u : ℕ → E) (U : ℕ → ℕ → Fin M → E), u 0 = D 0 t0 →
      (∀ n < N, (∀ i, ‖f (t0 + n * h + h * c.nodes i) (u n)‖ ≤ S) ∧ (∀ i, U n 0 i = u n) ∧
        (∀ k i, U n (k + 1) i = u n + h • ∑ j, A i j • f (t0 + n * h + h * c.nodes j) (U n (k + 1) j) +
          h • ∑ j, (c.Q i j - A i j) • f (t0 + n * h + h * c.nodes j) (U n k j)) ∧
        u (n + 1) = u n + h • ∑ i, c.weights i • f (t0 + n * h + h * c.nodes i) (U n K i)) →
      ∀ n ≤ N, ‖u n - D 0 (t0 + n * h)‖ ≤ C * (n * h) * (D' * h ^ M + (h * L / √(1 + (h * L) ^ 2)) ^ K * S) := by
  obtain ⟨C1, hC1, H1⟩ := C119_error c hc hun ext q name hname A hA
  obtain ⟨C2, hC2, H2⟩ := C117_convergence hqt c hc hun
  refine ⟨C2 * (1 + C1), by positivity, ?_⟩
  intro E _ _ _ f hf L hL0 hL t0 h D' S N K D hh hS hD hsol hD' u U hu0 hstep n hn
  classical
  have hex : ∀ m : ℕ, ∃ v : (Fin M → E) × E, RKStep c.nodes c.Q c.weights f (t0 + m * h) h (u m) v.1 v.2 := fun m =>
    (C117_solvable c hc hun f hf (fun t => ⟨L, hL t⟩) _ h hh _).exists
  choose v hv using hex
  set d := C1 * h * (h * L / √(1 + (h * L) ^ 2)) ^ K * S with hd
  have hd0 : 0 ≤ d := by positivity
  have h3 := H2 f hf t0 (t0 + N * h) D' D hD hsol hD' N h d (fun m => t0 + m * h) (fun _ => h) (by simp)
    (fun m _ => ⟨hh, le_rfl, by push_cast; ring⟩) le_rfl hd0 u (fun m => (v m).1) (fun _ _ => 0)
    (fun m => u (m + 1) - (v m).2) (fun m hm => by
      obtain ⟨g1, g2, g3, g4⟩ := hstep m hm
      refine ⟨fun i => by rw [norm_zero]; exact hd0, ?_, fun i => by rw [add_zero]; exact (hv m).stages i, ?_⟩
      · rw [g4]
        exact H1 f hf (t0 + m * h) h L S hh hL0 (fun i => hL _) (u m) (v m).2 g1 (v m).1 (hv m) (U m) g2 g3 K
      · rw [← (hv m).result]; abel) n hn
  refine h3.trans ?_
  rw [hu0, sub_self, norm_zero, zero_add, add_sub_cancel_left]
  have hD0 : 0 ≤ D' := (norm_nonneg _).trans (hD' t0 ⟨le_rfl, by
    have : 0 ≤ (N : ℝ) * h := by positivity
    linarith⟩)
  have e1 : C2 * (1 + C1) * (n * h) * (D' * h ^ M + (h * L / √(1 + (h * L) ^ 2)) ^ K * S) =
      C2 * (D' * (n * h) * h ^ M + n * d) + C2 * (n * h) * (C1 * (D' * h ^ M) + (h * L / √(1 + (h * L) ^ 2)) ^ K * S) := by
    rw [hd]; ring
  rw [e1]
  exact le_add_of_nonneg_right (by positivity)

/-- The hypotheses are met: any number of steps on `u' = -u` from the solution `exp (-t)`, with any number of sweeps. -/
example (ext : ExternalNum) (h : ℝ) (hh : 0 ≤ h) (N K : ℕ) : ∃ (c : Collocation 3) (A : Matrix (Fin 3) (Fin 3) ℝ) (u : ℕ → ℝ) (U : ℕ → ℕ → Fin 3 → ℝ),
    Collocation.new 3 "LEGENDRE" "RADAU-RIGHT" 0 1 = .ok c ∧ getQD ext "BEPAR" (kwTime c.nodes 0) none = .ok ⟨3, A⟩ ∧ u 0 = 1 ∧
    (∀ n, (∀ i, U n 0 i = u n) ∧ (∀ k i, U n (k + 1) i = u n + h • ∑ j, A i j • -U n (k + 1) j + h • ∑ j, (c.Q i j - A i j) • -U n k j) ∧
      u (n + 1) = u n + h • ∑ i, c.weights i • -U n K i) ∧
    ∃ C : ℝ, ∀ S, 0 ≤ S → (∀ n < N, |u n| ≤ S) → ∀ n ≤ N,
      |u n - Real.exp (-(n * h))| ≤ C * (n * h) * (1 * h ^ 3 + (h * 1 / √(1 + (h * 1) ^ 2)) ^ K * S) := by
  classical
  obtain ⟨c, hc⟩ := collocation_new_ok (M := 3) (nt := "LEGENDRE") (qt := "RADAU-RIGHT") (by decide)
    (by decide) ⟨by norm_num, fun _ => by norm_num⟩ 0 1
  have hun := unmoved_small (by norm_num) c hc
  have hf : ∀ (t x y : ℝ), inner ℝ ((fun _ u : ℝ => -u) t x - (fun _ u : ℝ => -u) t y) (x - y) ≤ 0 := fun t x y => by
    simp only [RCLike.inner_apply, conj_trivial]
    nlinarith [sq_nonneg (x - y)]
  have hLip : ∀ (t x y : ℝ), ‖(fun _ u : ℝ => -u) t x - (fun _ u : ℝ => -u) t y‖ ≤ 1 * ‖x - y‖ := fun t x y => by
    rw [one_mul, ← norm_neg (x - y)]
    exact le_of_eq (congrArg norm (by simp; ring))
  obtain ⟨hM, -, -⟩ := parallel_facts c hc hun
  have hA := bepar_matrix ext c.nodes hM none "BEPAR" (Or.inl rfl)
  have hex : ∀ v : ℝ, ∃ W : ℕ → Fin 3 → ℝ, (W 0 = fun _ => v) ∧ ∀ k i, W (k + 1) i = v + h • ∑ j, diagonal c.nodes i j • -W (k + 1) j +
      h • ∑ j, (c.Q i j - diagonal c.nodes i j) • -W k j := fun v => by
    obtain ⟨A, hA', W, hW, -⟩ := C119_solvable c hc hun ext none "BEPAR" (Or.inl rfl) _ hf (fun t => ⟨1, hLip t⟩) 0 h hh v (fun _ => v)
    have hAA : A = diagonal c.nodes := by
      rw [hA] at hA'
      exact (eq_of_heq (Sigma.mk.inj (Except.ok.inj hA')).2).symm
    rw [hAA] at hW
    exact ⟨W, hW⟩
  choose W hW0 hW using hex
  let u : ℕ → ℝ := fun n => Nat.rec 1 (fun _ v => v + h • ∑ i, c.weights i • -W v K i) n
  have hu : ∀ n, u (n + 1) = u n + h • ∑ i, c.weights i • -W (u n) K i := fun n => rfl
  obtain ⟨C, -, H⟩ := C119_convergence (Or.inr rfl) c hc hun ext none "BEPAR" (Or.inl rfl) _ hA
  refine ⟨c, _, u, fun n => W (u n), hc, hA, rfl, fun n => ⟨fun i => congrFun (hW0 _) i, hW _, hu n⟩, C, fun S hS hb n hn => ?_⟩
  have := H (fun _ u : ℝ => -u) hf 1 zero_le_one hLip 0 h 1 S N K (fun k t => (-1) ^ k * Real.exp (-t)) hh hS
    (fun k _ t _ => by
      have h1 : HasDerivAt (fun t : ℝ => Real.exp (-t)) (Real.exp (-t) * -1) t := (hasDerivAt_neg t).exp
      have h2 := (h1.const_mul ((-1 : ℝ) ^ k)).hasDerivWithinAt (s := Set.Icc 0 (0 + N * h))
      convert h2 using 1
      rw [pow_succ]; ring)
    (fun t _ => by simp) (fun t ht => by
      rw [Real.norm_eq_abs, abs_mul, abs_pow, abs_neg, abs_one, one_pow, one_mul, abs_of_pos (Real.exp_pos _), Real.exp_le_one_iff]
      linarith [ht.1]) u (fun n => W (u n)) (by simp [u])
    (fun n hn => ⟨fun i => by simpa using hb n hn, fun i => congrFun (hW0 _) i, hW _, hu n⟩) n hn
  simpa using this

end QMat
