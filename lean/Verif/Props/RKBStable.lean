import Verif.Lemmas.BStable
import Verif.Props.RKStab

/-!
# C79: the Runge-Kutta classes on nonlinear problems: quadratic invariants and contractivity
-/

namespace QMat

open Spec Matrix

section OneStage

variable {s : ℕ} {c : Fin s → ℝ} {A : Matrix (Fin s) (Fin s) ℝ} {b : Fin s → ℝ}

/-- A step with a right-hand side that vanishes except at the time of one stage. -/
theorem one_stage {E : Type*} [AddCommGroup E] [Module ℝ E] (k : Fin s) (hk : ∀ j, c j = c k → j = k) (F : E → E)
    (u y : E) (hy : y = u + A k k • F y) :
    RKStep c A b (fun t x => if t = c k then F x else 0) 0 1 u (fun i => u + A i k • F y) (u + b k • F y) := by
  have hf : ∀ a : Fin s → ℝ, ∑ j, a j • (if 0 + 1 * c j = c k then F (u + A j k • F y) else 0) = a k • F y := by
    intro a
    rw [Finset.sum_eq_single k]
    · rw [zero_add, one_mul, if_pos rfl, ← hy]
    · intro j _ hj
      rw [zero_add, one_mul, if_neg (fun e => hj (hk j e)), smul_zero]
    · simp
  refine ⟨fun i => ?_, ?_⟩
  · rw [hf fun j => A i j, one_smul]
  · rw [hf b, one_smul]

/-- A method with a negative weight, or with a weight larger than twice the diagonal entry, is not contractive. -/
theorem not_contractive (k : Fin s) (hk : ∀ j, c j = c k → j = k) (ha : 0 ≤ A k k)
    (hb : b k < 0 ∨ 2 * A k k < b k) :
    ∃ f : ℝ → ℝ → ℝ, (∀ t x y, inner ℝ (f t x - f t y) (x - y) ≤ 0) ∧
      ∃ (u v u1 v1 : ℝ) (Y Z : Fin s → ℝ), RKStep c A b f 0 1 u Y u1 ∧ RKStep c A b f 0 1 v Z v1 ∧
        ‖u - v‖ < ‖u1 - v1‖ := by
  obtain ⟨L, hL, hLb⟩ : ∃ L : ℝ, 0 < L ∧ 1 < |1 - b k * L / (1 + A k k * L)| := by
    rcases hb with hb | hb
    · refine ⟨1, one_pos, ?_⟩
      rw [mul_one, mul_one, lt_abs]
      left
      have : b k / (1 + A k k) < 0 := div_neg_of_neg_of_pos hb (by linarith)
      linarith
    · have hp : 0 < b k - 2 * A k k := by linarith
      refine ⟨3 / (b k - 2 * A k k), by positivity, ?_⟩
      rw [lt_abs]
      right
      have hd : 0 < 1 + A k k * (3 / (b k - 2 * A k k)) := by positivity
      have : 2 < b k * (3 / (b k - 2 * A k k)) / (1 + A k k * (3 / (b k - 2 * A k k))) := by
        rw [lt_div_iff₀ hd]
        have e : b k * (3 / (b k - 2 * A k k)) - 2 * (1 + A k k * (3 / (b k - 2 * A k k))) = 1 := by
          field_simp
          ring
        linarith
      linarith
  have hd : 0 < 1 + A k k * L := by positivity
  have h1 := one_stage (A := A) (b := b) k hk (fun x : ℝ => -L * x) 1 (1 / (1 + A k k * L)) (by
    rw [smul_eq_mul]; field_simp; ring)
  have h0 := one_stage (A := A) (b := b) k hk (fun x : ℝ => -L * x) 0 0 (by simp)
  refine ⟨_, fun t x y => ?_, 1, 0, _, _, _, _, h1, h0, ?_⟩
  · simp only [RCLike.inner_apply, conj_trivial]
    split_ifs
    · nlinarith [mul_self_nonneg (x - y)]
    · simp
  · simp only [sub_zero, norm_one, smul_eq_mul, mul_zero, add_zero, Real.norm_eq_abs]
    rwa [show 1 + b k * (-L * (1 / (1 + A k k * L))) = 1 - b k * L / (1 + A k k * L) by ring]

/-- A method with a non-zero diagonal entry of the matrix of algebraic stability does not keep the norm. -/
theorem not_invariant (k : Fin s) (hk : ∀ j, c j = c k → j = k) (hb : b k * (b k - 2 * A k k) ≠ 0) :
    ∃ f : ℝ → ℂ → ℂ, (∀ t x, inner ℝ x (f t x) = 0) ∧
      ∃ (u u1 : ℂ) (Y : Fin s → ℂ), RKStep c A b f 0 1 u Y u1 ∧ ‖u1‖ ≠ ‖u‖ := by
  have hd : (1 - A k k * Complex.I : ℂ) ≠ 0 := by
    intro h
    have := congrArg Complex.re h
    simp at this
  have h1 := one_stage (A := A) (b := b) k hk (fun x : ℂ => Complex.I * x) 1 (1 / (1 - A k k * Complex.I)) (by
    rw [Complex.real_smul]; field_simp; ring)
  refine ⟨_, fun t x => ?_, 1, _, _, h1, fun h => hb ?_⟩
  · split_ifs
    · rw [Complex.inner]
      simp [Complex.mul_re, Complex.mul_im]
      ring
    · simp
  · have e : (1 + b k • (Complex.I * (1 / (1 - A k k * Complex.I))) : ℂ) =
        (1 + (b k - A k k : ℝ) * Complex.I) / (1 - A k k * Complex.I) := by
      rw [Complex.real_smul, eq_div_iff hd]; push_cast; rw [add_mul, one_mul, mul_assoc, mul_assoc, one_div, inv_mul_cancel₀ hd]; ring
    rw [e, norm_div, norm_one, div_eq_one_iff_eq (norm_ne_zero_iff.mpr hd)] at h
    have h2 := congrArg (· ^ 2) h
    have e1 : (1 - A k k * Complex.I : ℂ) = ((1:ℝ):ℂ) + ((-A k k : ℝ) : ℂ) * Complex.I := by push_cast; ring
    have e2 : (1 + (b k - A k k : ℝ) * Complex.I : ℂ) = ((1:ℝ):ℂ) + ((b k - A k k : ℝ) : ℂ) * Complex.I := by
      push_cast; ring
    simp only [e1, e2, ← Complex.normSq_eq_norm_sq, Complex.normSq_add_mul_I] at h2
    linarith

end OneStage

namespace RKTable

open QPoly

/-- Entry of the matrix of algebraic stability. -/
def stabEntry (T : RKTable) (i j : ℕ) : Quad T.d :=
  T.b.getD i 0 * (T.A.getD i []).getD j 0 + T.b.getD j 0 * (T.A.getD j []).getD i 0 - T.b.getD i 0 * T.b.getD j 0

theorem stabEntry_real (T : RKTable) (i j : Fin T.toRK.s) :
    stabMatrix T.toRK.A T.toRK.b i j = (T.stabEntry i j).toReal := by
  simp only [stabMatrix, stabEntry, Quad.toReal_sub, Quad.toReal_add, Quad.toReal_mul]
  rfl

/-- Sufficient test for algebraic stability: the matrix is diagonal. -/
def algOk (T : RKTable) : Bool :=
  T.b.all nonneg && (List.range T.c.length).all fun i => (List.range T.c.length).all fun j =>
    if i = j then nonneg (T.stabEntry i j) else T.stabEntry i j = 0

/-- Test for symplectic coefficients. -/
def symOk (T : RKTable) : Bool :=
  (List.range T.c.length).all fun i => (List.range T.c.length).all fun j => T.stabEntry i j = 0

/-- A stage at a time of its own. -/
def alone (T : RKTable) (k : ℕ) : Bool :=
  (List.range T.c.length).all fun j => j = k || pos (T.c.getD j 0 - T.c.getD k 0) || pos (T.c.getD k 0 - T.c.getD j 0)

theorem alone_sound (T : RKTable) (hd : T.d = 2 ∨ T.d = 3) (k : Fin T.toRK.s) (h : T.alone k = true)
    (j : Fin T.toRK.s) (hj : T.toRK.c j = T.toRK.c k) : j = k := by
  have h := List.all_eq_true.mp h j (List.mem_range.mpr j.2)
  simp only [Bool.or_eq_true, decide_eq_true_eq] at h
  have e : (T.c.getD j 0).toReal = (T.c.getD k 0).toReal := hj
  rcases h with (h | h) | h
  · exact Fin.ext h
  · have := pos_sound hd h
    rw [Quad.toReal_sub, e, sub_self] at this
    exact absurd this (lt_irrefl _)
  · have := pos_sound hd h
    rw [Quad.toReal_sub, e, sub_self] at this
    exact absurd this (lt_irrefl _)

/-- A stage that shows that the method is not contractive. -/
def growsAt (T : RKTable) (k : ℕ) : Bool :=
  T.alone k && nonneg ((T.A.getD k []).getD k 0) &&
    (pos (0 - T.b.getD k 0) || pos (T.b.getD k 0 - (T.A.getD k []).getD k 0 - (T.A.getD k []).getD k 0))

/-- A stage that shows that the method does not keep the norm. -/
def changesAt (T : RKTable) (k : ℕ) : Bool :=
  T.alone k && (pos (T.stabEntry k k) || pos (0 - T.stabEntry k k))

end RKTable

/-- C79: with `BE`, `MidPoint` and `GAUSS_LG` steps on a dissipative equation in any inner product space, with any step
size, do not increase the distance of two solutions. -/
theorem C79_contractive (T : RKTable) (hT : T ∈ Tables.rkSchemes) (hname : T.name ∈ ["BE", "MidPoint", "GAUSS_LG"])
    {E : Type*} [NormedAddCommGroup E] [InnerProductSpace ℝ E]
    (f : ℝ → E → E) (hf : ∀ t x y, inner ℝ (f t x - f t y) (x - y) ≤ 0) (t h : ℝ) (hh : 0 ≤ h) (u v u1 v1 : E)
    (Y Z : Fin T.toRK.s → E) (hu : RKStep T.toRK.c T.toRK.A T.toRK.b f t h u Y u1)
    (hv : RKStep T.toRK.c T.toRK.A T.toRK.b f t h v Z v1) : ‖u1 - v1‖ ≤ ‖u - v‖ := by
  have htab : (Tables.rkSchemes.all fun T => decide (T.name ∉ ["BE", "MidPoint", "GAUSS_LG"]) || T.algOk) = true := by
    decide +kernel
  have hok : T.algOk = true := by simpa [hname] using List.all_eq_true.mp htab T hT
  obtain ⟨hd, hs, -⟩ := tables_shape T hT
  simp only [RKTable.algOk, Bool.and_eq_true] at hok
  refine step_contractive (fun i => ?_) (fun w => ?_) hf hh hu hv
  · have hi : (i : ℕ) < T.b.length := by rw [T.shapesOk_b hs]; exact i.2
    have hm : T.b.getD i 0 ∈ T.b := by simp only [List.getD_eq_getElem?_getD, List.getElem?_eq_getElem hi, Option.getD_some]; exact List.getElem_mem hi
    exact Quad.nonneg_sound hd (of_decide_eq_true (List.all_eq_true.mp hok.1 _ hm))
  · refine Finset.sum_nonneg fun i _ => ?_
    rw [Finset.sum_eq_single i]
    · have := List.all_eq_true.mp (List.all_eq_true.mp hok.2 i (List.mem_range.mpr i.2)) i (List.mem_range.mpr i.2)
      rw [if_pos rfl] at this
      rw [T.stabEntry_real]
      exact mul_nonneg (Quad.nonneg_sound hd (of_decide_eq_true this)) (mul_self_nonneg _)
    · intro j _ hj
      have := List.all_eq_true.mp (List.all_eq_true.mp hok.2 i (List.mem_range.mpr i.2)) j (List.mem_range.mpr j.2)
      rw [if_neg (fun e => hj (Fin.ext e.symm)), decide_eq_true_eq] at this
      rw [T.stabEntry_real, this, Quad.toReal_zero, zero_mul]
    · simp

/-- Instance: two solutions of `u' = -u ^ 3` by backward Euler. -/
example (u v u1 v1 : ℝ) (Y Z : Fin Tables.tBE.toRK.s → ℝ)
    (hu : RKStep Tables.tBE.toRK.c Tables.tBE.toRK.A Tables.tBE.toRK.b (fun _ u : ℝ => -u ^ 3) 0 1 u Y u1)
    (hv : RKStep Tables.tBE.toRK.c Tables.tBE.toRK.A Tables.tBE.toRK.b (fun _ u : ℝ => -u ^ 3) 0 1 v Z v1) :
    ‖u1 - v1‖ ≤ ‖u - v‖ :=
  C79_contractive Tables.tBE (by simp [Tables.rkSchemes]) (by decide) _ (fun t x y => by
    simp only [RCLike.inner_apply, conj_trivial]
    nlinarith [mul_nonneg (sq_nonneg (x - y)) (add_nonneg (add_nonneg (sq_nonneg x) (sq_nonneg y)) (sq_nonneg (x + y)))])
    0 1 zero_le_one u v u1 v1 Y Z hu hv

/-- C79, finding: with every other registered class, explicit or implicit, the distance of two solutions of some
dissipative equation grows in a step. -/
theorem C79_contractive_fails (T : RKTable) (hT : T ∈ Tables.rkSchemes)
    (hname : T.name ∉ ["BE", "MidPoint", "GAUSS_LG"]) :
    ∃ f : ℝ → ℝ → ℝ, (∀ t x y, inner ℝ (f t x - f t y) (x - y) ≤ 0) ∧
      ∃ (u v u1 v1 : ℝ) (Y Z : Fin T.toRK.s → ℝ), RKStep T.toRK.c T.toRK.A T.toRK.b f 0 1 u Y u1 ∧
        RKStep T.toRK.c T.toRK.A T.toRK.b f 0 1 v Z v1 ∧ ‖u - v‖ < ‖u1 - v1‖ := by
  have htab : (Tables.rkSchemes.all fun T => decide (T.name ∈ ["BE", "MidPoint", "GAUSS_LG"]) ||
      (List.range T.c.length).any fun k => T.growsAt k) = true := by decide +kernel
  obtain ⟨hd, hs, -⟩ := tables_shape T hT
  have hok : ((List.range T.c.length).any fun k => T.growsAt k) = true := by
    have := List.all_eq_true.mp htab T hT
    rwa [decide_eq_false hname, Bool.false_or] at this
  obtain ⟨k, hk, hg⟩ := List.any_eq_true.mp hok
  rw [List.mem_range] at hk
  simp only [RKTable.growsAt, Bool.and_eq_true, Bool.or_eq_true] at hg
  refine not_contractive (⟨k, hk⟩ : Fin T.toRK.s) (T.alone_sound hd ⟨k, hk⟩ hg.1.1)
    (Quad.nonneg_sound hd (of_decide_eq_true hg.1.2)) ?_
  rcases hg.2 with h | h
  · left
    have := QPoly.pos_sound hd h
    rw [Quad.toReal_sub, Quad.toReal_zero] at this
    change (T.b.getD k 0).toReal < 0
    linarith
  · right
    have := QPoly.pos_sound hd h
    rw [Quad.toReal_sub, Quad.toReal_sub] at this
    change 2 * ((T.A.getD k []).getD k 0).toReal < (T.b.getD k 0).toReal
    linarith

/-- C79: a step with `MidPoint` or `GAUSS_LG`, in any vector space and with any step size, keeps every quadratic form that
the equation keeps. -/
theorem C79_invariants (T : RKTable) (hT : T ∈ Tables.rkSchemes) (hname : T.name ∈ ["MidPoint", "GAUSS_LG"])
    {E : Type*} [AddCommGroup E] [Module ℝ E]
    (B : LinearMap.BilinForm ℝ E) (hB : ∀ x y, B x y = B y x) (f : ℝ → E → E) (hf : ∀ t x, B x (f t x) = 0)
    (t h : ℝ) (u u1 : E) (Y : Fin T.toRK.s → E) (hu : RKStep T.toRK.c T.toRK.A T.toRK.b f t h u Y u1) :
    B u1 u1 = B u u := by
  have htab : (Tables.rkSchemes.all fun T => decide (T.name ∉ ["MidPoint", "GAUSS_LG"]) || T.symOk) = true := by
    decide +kernel
  have hok : T.symOk = true := by simpa [hname] using List.all_eq_true.mp htab T hT
  refine step_invariant ?_ B hB hf hu
  ext i j
  have := List.all_eq_true.mp (List.all_eq_true.mp hok i (List.mem_range.mpr i.2)) j (List.mem_range.mpr j.2)
  rw [decide_eq_true_eq] at this
  exact (T.stabEntry_real i j).trans (by rw [this, Quad.toReal_zero]; rfl)

/-- Instance: the norm of a rotating point by the midpoint rule. -/
example (u u1 : ℝ × ℝ) (Y : Fin Tables.tMidPoint.toRK.s → ℝ × ℝ)
    (h : RKStep Tables.tMidPoint.toRK.c Tables.tMidPoint.toRK.A Tables.tMidPoint.toRK.b
      (fun (_ : ℝ) (u : ℝ × ℝ) => (-u.2, u.1)) 0 1 u Y u1) : u1.1 * u1.1 + u1.2 * u1.2 = u.1 * u.1 + u.2 * u.2 := by
  let B : LinearMap.BilinForm ℝ (ℝ × ℝ) := LinearMap.mk₂ ℝ (fun x y => x.1 * y.1 + x.2 * y.2)
    (fun _ _ _ => by simp; ring) (fun _ _ _ => by simp; ring) (fun _ _ _ => by simp; ring) (fun _ _ _ => by simp; ring)
  exact C79_invariants Tables.tMidPoint (by simp [Tables.rkSchemes]) (by decide) B (fun x y => by simp [B]; ring) _
    (fun t x => by simp [B]; ring) 0 1 u u1 Y h

/-- C79, finding: every other registered class changes the modulus in a step on some equation that keeps it. -/
theorem C79_invariants_fails (T : RKTable) (hT : T ∈ Tables.rkSchemes) (hname : T.name ∉ ["MidPoint", "GAUSS_LG"]) :
    ∃ f : ℝ → ℂ → ℂ, (∀ t x, inner ℝ x (f t x) = 0) ∧
      ∃ (u u1 : ℂ) (Y : Fin T.toRK.s → ℂ), RKStep T.toRK.c T.toRK.A T.toRK.b f 0 1 u Y u1 ∧ ‖u1‖ ≠ ‖u‖ := by
  have htab : (Tables.rkSchemes.all fun T => decide (T.name ∈ ["MidPoint", "GAUSS_LG"]) ||
      (List.range T.c.length).any fun k => T.changesAt k) = true := by decide +kernel
  obtain ⟨hd, hs, -⟩ := tables_shape T hT
  have hok : ((List.range T.c.length).any fun k => T.changesAt k) = true := by
    have := List.all_eq_true.mp htab T hT
    rwa [decide_eq_false hname, Bool.false_or] at this
  obtain ⟨k, hk, hg⟩ := List.any_eq_true.mp hok
  rw [List.mem_range] at hk
  simp only [RKTable.changesAt, Bool.and_eq_true, Bool.or_eq_true] at hg
  refine not_invariant (⟨k, hk⟩ : Fin T.toRK.s) (T.alone_sound hd ⟨k, hk⟩ hg.1) fun h0 => ?_
  have e := T.stabEntry_real (⟨k, hk⟩ : Fin T.toRK.s) (⟨k, hk⟩ : Fin T.toRK.s)
  have e2 : (T.stabEntry k k).toReal = 0 := by
    refine e.symm.trans ?_
    generalize T.toRK.A = A at h0
    generalize T.toRK.b = b at h0
    simp only [stabMatrix, of_apply]
    linear_combination -h0
  rcases hg.2 with h | h
  · have := QPoly.pos_sound hd h
    linarith
  · have := QPoly.pos_sound hd h
    rw [Quad.toReal_sub, Quad.toReal_zero] at this
    linarith

/-- C79, instance: `MidPoint` is a registered class, and one of its steps on `u' = (-u_2, u_1)`. -/
example : ∃ T ∈ Tables.rkSchemes, T.name = "MidPoint" ∧
    ∃ Y u1, RKStep T.toRK.c T.toRK.A T.toRK.b (fun (_ : ℝ) (u : ℝ × ℝ) => (-u.2, u.1)) 0 1 (1, 0) Y u1 ∧
      u1 = (3 / 5, 4 / 5) := by
  refine ⟨Tables.tMidPoint, by simp [Tables.rkSchemes], rfl, fun _ => (4 / 5, 2 / 5), _, ⟨fun i => ?_, ?_⟩, rfl⟩
  · have hA : Tables.tMidPoint.toRK.A i (0 : Fin 1) = 1 / 2 := by
      obtain rfl : i = (0 : Fin 1) := Subsingleton.elim (α := Fin 1) _ _
      change (Quad.q 1 2 : Quad 2).toReal = _
      rw [Quad.toReal_q]; norm_num
    change _ = _ + _ • ∑ j : Fin 1, _
    rw [Fin.sum_univ_one, hA]
    ext <;> simp <;> norm_num
  · have hb : Tables.tMidPoint.toRK.b (0 : Fin 1) = 1 := by
      change (Quad.q 1 1 : Quad 2).toReal = _
      rw [Quad.toReal_q]; norm_num
    change _ = _ + _ • ∑ j : Fin 1, _
    rw [Fin.sum_univ_one, hb]
    ext <;> simp <;> norm_num

end QMat
