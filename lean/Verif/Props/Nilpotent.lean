import Verif.Props.QDelta
import Verif.Props.Collocation
import Verif.Props.Algebraic
import Verif.Lemmas.Nilpotent

/-!
# C45-C47: diagonal coefficients with nilpotent iteration matrices

The SDC sweep on Dahlquist's equation with `z = λ Δt` multiplies the error by
`(1 - z QΔ)⁻¹ z (Q - QΔ)`; for `z → 0` this is `z (Q - QΔ)`, for `z → ∞` it is `1 - QΔ⁻¹ Q`, i.e. the
error of a sweep satisfies `QΔ e' = (QΔ - Q) e`.
-/

namespace QMat

open Matrix Spec

variable {M : ℕ} {nt qt : String}

theorem coll_types {a b : ℝ} {c : Collocation M} (hc : Collocation.new M nt qt a b = .ok c) :
    c.nodeType = nt ∧ c.quadType = qt := by
  obtain ⟨x, hM, h⟩ := collocation_spec hc
  exact ⟨h.nodeType, h.quadType⟩

theorem coll_monomials {b : ℝ} (hb : 0 < b) {c : Collocation M}
    (hc : Collocation.new M nt qt 0 b = .ok c) :
    Function.Injective c.nodes ∧ IntegratesMonomials c.nodes c.Q := by
  obtain ⟨x, hM, h⟩ := collocation_spec hc
  exact ⟨(h.strictMono hb).injective, integratesMonomials_of_exact fun p hp i => h.Q_exact hb p hp i⟩

theorem getQD_flex_coll (ext : ExternalNum) (c : Collocation M) (k : Option ℤ) :
    getQD ext "MIN-SR-FLEX" (kwColl c) k = (do
      let g ← (do
        let c' ← Collocation.new M c.nodeType c.quadType
        return ({ size := M, kDependent := true
                  compute := computeMINSRFLEX ext M c.nodeType c.quadType c'.nodes
                  shared := fun k => k.getD 1 > M, dTau := 0 } : QDeltaGen) : PyResult QDeltaGen)
      let A ← g.getQDelta k
      return (⟨g.size, A⟩ : Σ n, Matrix (Fin n) (Fin n) ℝ)) := rfl

theorem getQD_srs_coll (ext : ExternalNum) (c : Collocation M) (k : Option ℤ) :
    getQD ext "MIN-SR-S" (kwColl c) k = (do
      let g ← (do
        let _ ← Collocation.new M c.nodeType c.quadType
        return ({ size := M, kDependent := false
                  compute := fun _ => computeMINSRS ext M c.nodeType c.quadType
                  shared := fun _ => false, dTau := 0 } : QDeltaGen) : PyResult QDeltaGen)
      let A ← g.getQDelta k
      return (⟨g.size, A⟩ : Σ n, Matrix (Fin n) (Fin n) ℝ)) := rfl

/-! ## C45 -/

/-- C45: `MIN-SR-NS` for a collocation method on `[0, b]` makes the non-stiff iteration nilpotent:
`(Q - QDelta)^M = 0`. -/
theorem C45_minsrns_nilpotent (ext : ExternalNum) {b : ℝ} (hb : 0 < b) (c : Collocation M)
    (hc : Collocation.new M nt qt 0 b = .ok c) (k : Option ℤ) :
    ∃ A : Matrix (Fin M) (Fin M) ℝ, getQD ext "MIN-SR-NS" (kwColl c) k = .ok ⟨M, A⟩ ∧
      (c.Q - A) ^ M = 0 := by
  obtain ⟨hx, hQ⟩ := coll_monomials hb hc
  exact ⟨_, rfl, minsrns_nilpotent hx hQ⟩

/-- Instance: five nodes on `[0, 2]`. -/
example (ext : ExternalNum) : ∃ (c : Collocation 5) (A : Matrix (Fin 5) (Fin 5) ℝ),
    Collocation.new 5 "CHEBY-3" "LOBATTO" 0 2 = .ok c ∧ getQD ext "MIN-SR-NS" (kwColl c) none = .ok ⟨5, A⟩ ∧
    (c.Q - A) ^ 5 = 0 := by
  obtain ⟨c, hc⟩ := collocation_new_ok (M := 5) (nt := "CHEBY-3") (qt := "LOBATTO") (by decide)
    (by decide) ⟨by norm_num, fun _ => by norm_num⟩ 0 2
  obtain ⟨A, h⟩ := C45_minsrns_nilpotent ext (by norm_num) c hc none
  exact ⟨c, A, hc, h⟩

/-- C45, for any generator with distinct nodes whose `Q` integrates the monomials of degree `< M`
(the assumption of the reference). -/
theorem C45_minsrns_nilpotent_generator (ext : ExternalNum) (g : QGenerator M)
    (hx : Function.Injective g.nodes)
    (hQ : ∀ k < M, ∀ i, (g.Q *ᵥ fun j => g.nodes j ^ k) i = g.nodes i ^ (k + 1) / (k + 1))
    (k : Option ℤ) :
    ∃ A : Matrix (Fin M) (Fin M) ℝ,
      getQD ext "MIN-SR-NS" (PyDict.single "qGen" (.qgen (.other M g))) k = .ok ⟨M, A⟩ ∧
      (g.Q - A) ^ M = 0 :=
  ⟨_, rfl, minsrns_nilpotent hx hQ⟩

/-- Every documented configuration satisfies the hypotheses. -/
example : ∃ c : Collocation 5, Collocation.new 5 "CHEBY-3" "LOBATTO" 0 2 = .ok c :=
  collocation_new_ok (by decide) (by decide) ⟨by decide, by decide⟩ 0 2

/-! ## C46 -/

/-- The error of SDC sweeps with `QDs k` in the stiff limit: `QDs k e' = (QDs k - Q) e`; on a zero node
the value is the initial one, so the error there is `0`. -/
def StiffErrors {n : ℕ} (x : Fin n → ℝ) (Q : Matrix (Fin n) (Fin n) ℝ)
    (QDs : ℕ → Matrix (Fin n) (Fin n) ℝ) (e : ℕ → Fin n → ℝ) : Prop :=
  (∀ k i, x i = 0 → e k i = 0) ∧ ∀ k, QDs k *ᵥ e (k + 1) = QDs k *ᵥ e k - Q *ᵥ e k

/-- C46: `MIN-SR-FLEX` for a collocation method on `[0, 1]`: the coefficients of the sweeps
`k = 1, ..., M` annihilate every error in the stiff limit after `M` sweeps. -/
theorem C46_flex_exact (ext : ExternalNum) (c : Collocation M)
    (hc : Collocation.new M nt qt = .ok c) :
    ∃ As : ℕ → Matrix (Fin M) (Fin M) ℝ,
      (∀ k < M, getQD ext "MIN-SR-FLEX" (kwColl c) (some (k + 1 : ℕ)) = .ok ⟨M, As k⟩) ∧
      ∀ e, StiffErrors c.nodes c.Q As e → e M = 0 := by
  obtain ⟨hx, hQ⟩ := coll_monomials one_pos hc
  refine ⟨fun k => Matrix.diagonal fun i => c.nodes i / (k + 1 : ℕ), fun k hk => ?_, fun e he => ?_⟩
  · exact_mod_cast (C48_flex ext c hc (k + 1 : ℕ) (by exact_mod_cast Nat.le_add_left 1 k)
      (by exact_mod_cast hk)).1
  · refine flex_annihilates hx hQ e he.1 fun k _ i => ?_
    have := congrFun (he.2 k) i
    rw [Pi.sub_apply, Matrix.mulVec_diagonal, Matrix.mulVec_diagonal] at this
    exact this

/-- Instance: five sweeps with five nodes. -/
example (ext : ExternalNum) : ∃ (c : Collocation 5) (As : ℕ → Matrix (Fin 5) (Fin 5) ℝ),
    Collocation.new 5 "LEGENDRE" "RADAU-RIGHT" = .ok c ∧
    (∀ k < 5, getQD ext "MIN-SR-FLEX" (kwColl c) (some (k + 1 : ℕ)) = .ok ⟨5, As k⟩) ∧
    ∀ e, StiffErrors c.nodes c.Q As e → e 5 = 0 := by
  obtain ⟨c, hc⟩ := collocation_new_ok (M := 5) (nt := "LEGENDRE") (qt := "RADAU-RIGHT") (by decide)
    (by decide) ⟨by norm_num, fun _ => by norm_num⟩ 0 1
  obtain ⟨As, h⟩ := C46_flex_exact ext c hc
  exact ⟨c, As, hc, h⟩

/-- C46, as a product of iteration matrices: when no node is zero,
`(1 - QDelta_M⁻¹ Q) ⋯ (1 - QDelta_1⁻¹ Q) = 0`. -/
theorem C46_flex_product (ext : ExternalNum) (c : Collocation M)
    (hc : Collocation.new M nt qt = .ok c) (h0 : ∀ i, c.nodes i ≠ 0) :
    ∃ As : ℕ → Matrix (Fin M) (Fin M) ℝ,
      (∀ k < M, getQD ext "MIN-SR-FLEX" (kwColl c) (some (k + 1 : ℕ)) = .ok ⟨M, As k⟩) ∧
      (List.range M).foldl (fun P k => (1 - (As k)⁻¹ * c.Q) * P) 1 = 0 := by
  obtain ⟨hx, hQ⟩ := coll_monomials one_pos hc
  refine ⟨fun k => Matrix.diagonal fun i => c.nodes i / (k + 1 : ℕ), fun k hk => ?_, ?_⟩
  · exact_mod_cast (C48_flex ext c hc (k + 1 : ℕ) (by exact_mod_cast Nat.le_add_left 1 k)
      (by exact_mod_cast hk)).1
  · set As : ℕ → Matrix (Fin M) (Fin M) ℝ :=
      fun k => Matrix.diagonal fun i => c.nodes i / (k + 1 : ℕ)
    set P : ℕ → Matrix (Fin M) (Fin M) ℝ := fun n =>
      (List.range n).foldl (fun P k => (1 - (As k)⁻¹ * c.Q) * P) 1 with hP
    have hPs : ∀ k, P (k + 1) = (1 - (As k)⁻¹ * c.Q) * P k := fun k => by
      simp [hP, List.range_succ]
    have hA : ∀ k, IsUnit (As k).det := fun k => by
      rw [Matrix.det_diagonal, isUnit_iff_ne_zero, Finset.prod_ne_zero_iff]
      intro i _
      have : ((k + 1 : ℕ) : ℝ) ≠ 0 := by positivity
      exact div_ne_zero (h0 i) this
    change P M = 0
    ext i j
    have key : ∀ v : Fin M → ℝ, P M *ᵥ v = 0 := by
      intro v
      refine flex_annihilates hx hQ (fun k => P k *ᵥ v) (fun k i hi => absurd hi (h0 i))
        fun k _ i => ?_
      have : As k *ᵥ (P (k + 1) *ᵥ v) = As k *ᵥ (P k *ᵥ v) - c.Q *ᵥ (P k *ᵥ v) := by
        rw [hPs, Matrix.mulVec_mulVec, ← Matrix.mul_assoc, Matrix.mul_sub, Matrix.mul_one,
          ← Matrix.mul_assoc, Matrix.mul_nonsing_inv _ (hA k), Matrix.one_mul, Matrix.sub_mul,
          Matrix.sub_mulVec, Matrix.mulVec_mulVec, Matrix.mulVec_mulVec]
      have := congrFun this i
      rw [Pi.sub_apply, Matrix.mulVec_diagonal, Matrix.mulVec_diagonal] at this
      exact this
    have := congrFun (key (Pi.single j 1)) i
    rw [Matrix.mulVec_single_one] at this
    exact this

/-- The product form applies to Radau nodes. -/
example : ∃ c : Collocation 2, Collocation.new 2 "LEGENDRE" "RADAU-RIGHT" = .ok c :=
  collocation_new_ok (by decide) (by decide) ⟨by decide, by decide⟩ 0 1

/-- C46 (finding): the parameters taken from a `Collocation` are its size and types, not its interval:
`MIN-SR-FLEX` and `MIN-SR-S` are always computed on `[0, 1]`, whatever the interval of `qGen`. -/
theorem C46_interval_ignored_fails (ext : ExternalNum) {a b : ℝ} (c c' : Collocation M)
    (hc : Collocation.new M nt qt a b = .ok c) (hc' : Collocation.new M nt qt = .ok c')
    (k : Option ℤ) :
    getQD ext "MIN-SR-FLEX" (kwColl c) k = getQD ext "MIN-SR-FLEX" (kwColl c') k ∧
    getQD ext "MIN-SR-S" (kwColl c) k = getQD ext "MIN-SR-S" (kwColl c') k := by
  rw [getQD_flex_coll, getQD_flex_coll, getQD_srs_coll, getQD_srs_coll,
    (coll_types hc).1, (coll_types hc).2, (coll_types hc').1, (coll_types hc').2]
  exact ⟨rfl, rfl⟩

/-! ## C47 -/

/-- The loop of `MIN_SR_S.computeQDelta` returns the coefficients of
the last size, for some initial guess. -/
theorem srsLoop_last (ext : ExternalNum) (nt qt : String) (left m : ℕ) (ab : Option (ℝ × ℝ))
    (hok : ∀ n, m ≤ n → n ≤ m + left → ∃ c : Collocation n, Collocation.new n nt qt = .ok c)
    (N : ℕ) (hN : N = m + left) :
    ∃ ab' r, srsComputeCoeffs ext nt qt N ab' = .ok r ∧
      srsLoop ext nt qt left m ab = .ok fun i => r.1 (Fin.cast hN.symm i) := by
  have hcc : ∀ n, m ≤ n → n ≤ m + left → ∀ ab, ∃ r, srsComputeCoeffs ext nt qt n ab = .ok r := by
    intro n h1 h2 ab
    obtain ⟨c, hc⟩ := hok n h1 h2
    exact ⟨_, by simp only [srsComputeCoeffs, hc, bind, Except.bind, pure, Except.pure]; rfl⟩
  induction left generalizing m ab with
  | zero =>
    have hN' : m = N := hN.symm
    subst hN'
    obtain ⟨r, hr⟩ := hcc m le_rfl le_rfl ab
    exact ⟨ab, r, hr, by simp only [srsLoop, hr, bind, Except.bind, pure, Except.pure]; rfl⟩
  | succ left ih =>
    obtain ⟨r0, hr0⟩ := hcc m le_rfl (by omega) ab
    obtain ⟨ab', r, hr, hl⟩ := ih (m + 1)
      (if m > 1 then some (srsFit ext (fun i => r0.1 i * m) r0.2) else ab)
      (fun n h1 h2 => hok n (by omega) (by omega)) (by omega)
      (fun n h1 h2 => hcc n (by omega) (by omega))
    refine ⟨ab', r, hr, ?_⟩
    simp only [srsLoop, hr0, bind, Except.bind, pure, Except.pure]
    rw [hl]
    rfl

theorem dropsFirst_iff (qt : String) : dropsFirst qt = true ↔ qt = "LOBATTO" ∨ qt = "RADAU-LEFT" := by
  simp [dropsFirst]

theorem computeMINSRS_last (ext : ExternalNum) {c : Collocation M}
    (hc : Collocation.new M nt qt = .ok c) :
    ∃ ab r, srsComputeCoeffs ext nt qt M ab = .ok r ∧
      computeMINSRS ext M nt qt = .ok (Matrix.diagonal r.1) := by
  obtain ⟨x, hM, h⟩ := collocation_spec hc
  have hv := validSize_of_getNodes h.getNodes
  have hm : (if dropsFirst qt then 2 else 1) ≤ M := by
    split_ifs with hd
    · exact hv.2 ((dropsFirst_iff qt).mp hd)
    · exact hv.1
  obtain ⟨ab, r, hr, hl⟩ := srsLoop_last ext nt qt (M - if dropsFirst qt then 2 else 1)
    (if dropsFirst qt then 2 else 1) none (fun n h1 h2 => by
      refine collocation_new_ok h.hnt h.hqt ⟨?_, fun hd => ?_⟩ 0 1
      · split_ifs at h1 <;> omega
      · rw [if_pos ((dropsFirst_iff qt).mpr hd)] at h1
        exact h1) M (by omega)
  refine ⟨ab, r, hr, ?_⟩
  simp only [computeMINSRS, hm, dif_pos, hl, bind, Except.bind, pure, Except.pure]
  rfl

theorem srs_nilpotent {n : ℕ} {x d : Fin n → ℝ} {Q : Matrix (Fin n) (Fin n) ℝ}
    (hx : Function.Injective x) (hx0 : ∀ i, x i ≠ 0) (hd : ∀ i, d i ≠ 0)
    (h : srsNilpotency Q x d = 0) : (1 - (Matrix.diagonal d)⁻¹ * Q) ^ n = 0 := by
  have hinv : (Matrix.diagonal d)⁻¹ = Matrix.diagonal fun j => 1 / d j := by
    refine Matrix.inv_eq_left_inv ?_
    rw [Matrix.diagonal_mul_diagonal]
    have : (fun i => 1 / d i * d i) = fun _ => 1 := by
      ext i
      rw [one_div, inv_mul_cancel₀ (hd i)]
    rw [this, Matrix.diagonal_one]
  refine pow_eq_zero_of_det x hx hx0 fun i => ?_
  have := congrFun h i
  simp only [srsNilpotency, Pi.zero_apply, sub_eq_zero] at this
  rw [← this, hinv]
  congr 1
  module

/-- The system that `MIN-SR-S` gives to the root finder:
`det((1 - t) I + t diag(d)⁻¹ Q) - 1`, one equation for each node `t`. -/
noncomputable def StiffSystem {n : ℕ} (Q : Matrix (Fin n) (Fin n) ℝ) (x : Fin n → ℝ) (d : Fin n → ℝ) : Fin n → ℝ :=
  fun i => ((1 - x i) • (1 : Matrix (Fin n) (Fin n) ℝ) +
    x i • (Matrix.diagonal (fun j => 1 / d j) * Q)).det - 1

theorem srs_one {Q : Matrix (Fin 1) (Fin 1) ℝ} (h : Q 0 0 ≠ 0) :
    (1 - (Matrix.diagonal Q.diag)⁻¹ * Q) ^ 1 = 0 := by
  have hQ : Matrix.diagonal Q.diag = Q := by
    ext i j
    rw [Subsingleton.elim i 0, Subsingleton.elim j 0]
    simp
  rw [hQ, Matrix.nonsing_inv_mul _ (by rw [Matrix.det_fin_one]; exact isUnit_iff_ne_zero.mpr h),
    sub_self, pow_one]

/-- C47: `MIN-SR-S` for a collocation method on `[0, 1]` without the left end (`GAUSS`,
`RADAU-RIGHT`): if the root finder returns a root with non-zero entries of the system of the full
size (nothing is asked for the smaller sizes, used only for initial guesses), then the stiff
iteration is nilpotent: `(1 - QDelta⁻¹ Q)^M = 0`. -/
theorem C47_minsrs_nilpotent (ext : ExternalNum) (c : Collocation M)
    (hc : Collocation.new M nt qt = .ok c) (hqt : qt = "GAUSS" ∨ qt = "RADAU-RIGHT")
    (h0 : ∀ i, c.nodes i ≠ 0)
    (hsolve : 2 ≤ M → ∀ x0, (∀ i, ext.fsolve (StiffSystem c.Q c.nodes) x0 i ≠ 0) ∧
      StiffSystem c.Q c.nodes (ext.fsolve (StiffSystem c.Q c.nodes) x0) = 0) (k : Option ℤ) :
    ∃ d : Fin M → ℝ, getQD ext "MIN-SR-S" (kwColl c) k = .ok ⟨M, Matrix.diagonal d⟩ ∧
      (∀ i, d i ≠ 0) ∧ (1 - (Matrix.diagonal d)⁻¹ * c.Q) ^ M = 0 := by
  obtain ⟨hx, hQ⟩ := coll_monomials one_pos hc
  obtain ⟨ab, r, hr, hM⟩ := computeMINSRS_last ext hc
  have hdrop : dropsFirst qt = false := by rcases hqt with rfl | rfl <;> rfl
  simp only [srsComputeCoeffs, hc, bind, Except.bind, pure, Except.pure] at hr
  have hsys : srsSystem qt c.Q c.nodes = ⟨M, c.Q, c.nodes⟩ := by simp [srsSystem, hdrop]
  rw [hsys] at hr
  have hr1 : r.1 = srsCoeffs ext M c.Q c.nodes ab := by
    cases hr
    ext i
    simp [srsRestore, hdrop, atPos]
  refine ⟨r.1, ?_, ?_⟩
  · rw [getQD_srs_coll, (coll_types hc).1, (coll_types hc).2, hc]
    simp only [bind, Except.bind, pure, Except.pure, QDeltaGen.getQDelta, hM]
  · rw [hr1]
    by_cases h1 : M = 1
    · subst h1
      have hq : c.Q 0 0 ≠ 0 := by
        have := hQ 0 one_pos 0
        have e : (c.Q *ᵥ fun j => c.nodes j ^ 0) 0 = c.Q 0 0 := by
          simp [Matrix.mulVec, dotProduct]
        rw [e] at this
        rw [this]
        simpa using h0 0
      simp only [srsCoeffs, if_true]
      refine ⟨fun i => ?_, srs_one hq⟩
      rw [Subsingleton.elim i 0]
      exact hq
    · have hM2 : 2 ≤ M := by
        have : 0 < M := (collocation_spec hc).choose_spec.choose
        omega
      simp only [srsCoeffs, h1, if_false]
      have := hsolve hM2
      exact ⟨(this _).1, srs_nilpotent hx h0 (this _).1 (this _).2⟩

/-- C47, methods with the left end as a node (`RADAU-LEFT`, `LOBATTO`): the first coefficient is `0`,
the others are those of the system without the first node, and under the same assumption on the root
finder `M - 1` sweeps annihilate every error in the stiff limit. -/
theorem C47_minsrs_nilpotent_left {m : ℕ} (ext : ExternalNum) (c : Collocation (m + 1))
    (hc : Collocation.new (m + 1) nt qt = .ok c) (hqt : qt = "RADAU-LEFT" ∨ qt = "LOBATTO")
    (hsolve : 2 ≤ m → ∀ x0,
      (∀ i, ext.fsolve (StiffSystem (c.Q.submatrix Fin.succ Fin.succ) (c.nodes ∘ Fin.succ)) x0 i ≠ 0) ∧
      StiffSystem (c.Q.submatrix Fin.succ Fin.succ) (c.nodes ∘ Fin.succ)
        (ext.fsolve (StiffSystem (c.Q.submatrix Fin.succ Fin.succ) (c.nodes ∘ Fin.succ)) x0) = 0)
    (k : Option ℤ) :
    ∃ d : Fin m → ℝ,
      getQD ext "MIN-SR-S" (kwColl c) k =
        .ok ⟨m + 1, Matrix.diagonal (Fin.cons 0 d : Fin (m + 1) → ℝ)⟩ ∧
      (∀ i, d i ≠ 0) ∧
      (1 - (Matrix.diagonal d)⁻¹ * c.Q.submatrix Fin.succ Fin.succ) ^ m = 0 ∧
      ∀ e, StiffErrors c.nodes c.Q (fun _ => Matrix.diagonal (Fin.cons 0 d : Fin (m + 1) → ℝ)) e →
        e m = 0 := by
  obtain ⟨hx, hQ⟩ := coll_monomials one_pos hc
  obtain ⟨ab, r, hr, hM⟩ := computeMINSRS_last ext hc
  have hdrop : dropsFirst qt = true := by rcases hqt with rfl | rfl <;> rfl
  obtain ⟨xx, hMpos, hspec⟩ := collocation_spec hc
  have hm1 : 1 ≤ m := by
    have := (validSize_of_getNodes hspec.getNodes).2 ((dropsFirst_iff qt).mp hdrop)
    omega
  have hn0 : c.nodes 0 = 0 := by
    obtain ⟨hmono, hin, hl, -⟩ := C24_collocation_nodes one_pos c hc
    obtain ⟨i, hi⟩ := hl hqt
    exact le_antisymm (hi ▸ hmono.monotone (Fin.zero_le i)) (hin 0).1
  set Qs := c.Q.submatrix Fin.succ Fin.succ with hQs
  set xs := c.nodes ∘ Fin.succ with hxs
  have hxs0 : ∀ i, xs i ≠ 0 := fun i h => by
    have : Fin.succ i = 0 := hx (by rw [hn0]; exact h)
    exact Fin.succ_ne_zero i this
  have hxsi : Function.Injective xs := hx.comp (Fin.succ_injective m)
  simp only [srsComputeCoeffs, hc, bind, Except.bind, pure, Except.pure] at hr
  have hsys : srsSystem qt c.Q c.nodes = ⟨m, Qs, xs⟩ := by
    unfold srsSystem
    rw [if_pos hdrop]
    rfl
  rw [hsys] at hr
  have hr1 : r.1 = (Fin.cons 0 (srsCoeffs ext (m + 1) Qs xs ab) : Fin (m + 1) → ℝ) := by
    cases hr
    ext i
    refine Fin.cases ?_ (fun i => ?_) i
    · simp [srsRestore, hdrop]
    · simp [srsRestore, hdrop, atPos]
  have hd : (∀ i, srsCoeffs ext (m + 1) Qs xs ab i ≠ 0) ∧
      (1 - (Matrix.diagonal (srsCoeffs ext (m + 1) Qs xs ab))⁻¹ * Qs) ^ m = 0 := by
    by_cases h1 : m = 1
    · subst h1
      have hq : Qs 0 0 ≠ 0 := by
        have := hQ 1 (by norm_num) 1
        have e : (c.Q *ᵥ fun j => c.nodes j ^ 1) 1 = c.Q 1 1 * c.nodes 1 := by
          simp [Matrix.mulVec, dotProduct, Fin.sum_univ_two, hn0]
        rw [e] at this
        have hne : c.nodes 1 ≠ 0 := hxs0 0
        intro hz
        have hz' : c.Q 1 1 = 0 := hz
        rw [hz', zero_mul] at this
        have h2 : c.nodes 1 ^ 2 ≠ 0 := pow_ne_zero 2 hne
        norm_num at this
        apply h2
        linarith
      simp only [srsCoeffs, if_true]
      refine ⟨fun i => ?_, srs_one hq⟩
      rw [Subsingleton.elim i 0]
      exact hq
    · simp only [srsCoeffs, h1, if_false]
      have := hsolve (by omega)
      exact ⟨(this _).1, srs_nilpotent hxsi hxs0 (this _).1 (this _).2⟩
  refine ⟨srsCoeffs ext (m + 1) Qs xs ab, ?_, hd.1, hd.2, fun e he => ?_⟩
  · rw [getQD_srs_coll, (coll_types hc).1, (coll_types hc).2, hc]
    simp only [bind, Except.bind, pure, Except.pure, QDeltaGen.getQDelta, hM, hr1]
  · generalize srsCoeffs ext (m + 1) Qs xs ab = d at hd he
    have hinv : IsUnit (Matrix.diagonal d).det := by
      rw [Matrix.det_diagonal, isUnit_iff_ne_zero, Finset.prod_ne_zero_iff]
      exact fun i _ => hd.1 i
    have hstep : ∀ k, (fun i => e (k + 1) (Fin.succ i)) =
        (1 - (Matrix.diagonal d)⁻¹ * Qs) *ᵥ fun i => e k (Fin.succ i) := by
      intro k
      have h1 : Matrix.diagonal d *ᵥ (fun i => e (k + 1) (Fin.succ i)) =
          Matrix.diagonal d *ᵥ (fun i => e k (Fin.succ i)) - Qs *ᵥ fun i => e k (Fin.succ i) := by
        ext i
        have := congrFun (he.2 k) (Fin.succ i)
        simp only [Pi.sub_apply, Matrix.mulVec_diagonal, Fin.cons_succ] at this ⊢
        rw [this]
        congr 1
        change ∑ j, c.Q i.succ j * e k j = ∑ j : Fin m, c.Q i.succ j.succ * e k j.succ
        rw [Fin.sum_univ_succ, he.1 k 0 hn0, mul_zero, zero_add]
      have h2 := congrArg (fun v => (Matrix.diagonal d)⁻¹ *ᵥ v) h1
      simp only [Matrix.mulVec_sub, Matrix.mulVec_mulVec, Matrix.nonsing_inv_mul _ hinv,
        Matrix.one_mulVec] at h2
      rw [h2, Matrix.sub_mulVec, Matrix.one_mulVec]
    have hpow : ∀ k, (fun i => e k (Fin.succ i)) =
        (1 - (Matrix.diagonal d)⁻¹ * Qs) ^ k *ᵥ fun i => e 0 (Fin.succ i) := by
      intro k
      induction k with
      | zero => simp
      | succ k ih => rw [hstep, ih, Matrix.mulVec_mulVec, pow_succ']
    ext i
    refine Fin.cases ?_ (fun i => ?_) i
    · exact he.1 m 0 hn0
    · have := congrFun (hpow m) i
      rw [hd.2, Matrix.zero_mulVec] at this
      exact this

/-- Two equidistant nodes `1/2, 1`: `Q` is known, and `d = (3/8, 2/3)` is a root of the system. -/
theorem equid_radau_two {c : Collocation 2} (hc : Collocation.new 2 "EQUID" "RADAU-RIGHT" = .ok c) :
    c.nodes = ![1 / 2, 1] ∧ c.Q = !![3 / 4, -1 / 4; 1, 0] := by
  obtain ⟨hx, hQ⟩ := coll_monomials one_pos hc
  obtain ⟨x, hM, h⟩ := collocation_spec hc
  have hn : c.nodes = ![1 / 2, 1] := by
    have hg := h.getNodes
    rw [getNodes_equid (by decide) ⟨by decide, by decide⟩] at hg
    cases hg
    have e : scaleNodes 0 1 (fun i : Fin 2 => -1 + ((i : ℕ) + equidOffset "RADAU-RIGHT" : ℕ) *
        (2 / (equidIntervals "RADAU-RIGHT" 2 : ℝ))) = ![1 / 2, 1] := by
      have e1 : equidOffset "RADAU-RIGHT" = 1 := rfl
      have e2 : equidIntervals "RADAU-RIGHT" 2 = 2 := rfl
      ext i
      fin_cases i <;> norm_num [scaleNodes, e1, e2]
    rw [h.nodes, e]
    have e0 : snapAt 0 (⟨0, hM⟩ : Fin 2) ![1 / 2, 1] = ![1 / 2, 1] := by
      unfold snapAt
      rw [if_neg]
      norm_num [npIsClose, abs_of_pos]
    rw [e0, snapAt_self]
    rfl
  refine ⟨hn, ?_⟩
  have a0 := hQ 0 (by norm_num)
  have a1 := hQ 1 (by norm_num)
  have b00 := a0 0
  have b01 := a0 1
  have b10 := a1 0
  have b11 := a1 1
  simp [Matrix.mulVec, dotProduct, Fin.sum_univ_two, hn] at b00 b01 b10 b11
  ext i j
  fin_cases i <;> fin_cases j <;> simp <;> linarith

/-- The hypotheses of `C47_minsrs_nilpotent` can be met. -/
theorem minsrs_example : ∃ (ext : ExternalNum) (c : Collocation 2),
    Collocation.new 2 "EQUID" "RADAU-RIGHT" = .ok c ∧ (∀ i, c.nodes i ≠ 0) ∧
    ∀ x0, (∀ i, ext.fsolve (StiffSystem c.Q c.nodes) x0 i ≠ 0) ∧
      StiffSystem c.Q c.nodes (ext.fsolve (StiffSystem c.Q c.nodes) x0) = 0 := by
  obtain ⟨c, hc⟩ := collocation_new_ok (M := 2) (nt := "EQUID") (qt := "RADAU-RIGHT") (by decide)
    (by decide) ⟨by decide, by decide⟩ 0 1
  obtain ⟨hn, hQ⟩ := equid_radau_two hc
  refine ⟨{ trivialExt with
    fsolve := fun {n} _ x => fun i => if n = 2 then (if (i : ℕ) = 0 then 3 / 8 else 2 / 3) else x i },
    c, hc, ?_, fun x0 => ⟨?_, ?_⟩⟩
  · intro i; fin_cases i <;> simp [hn]
  · intro i; fin_cases i <;> norm_num
  · ext i
    rw [hn, hQ]
    fin_cases i <;> norm_num [StiffSystem, Matrix.det_fin_two, Matrix.mul_apply, Fin.sum_univ_two]

example : ∃ (ext : ExternalNum) (c : Collocation 2) (A : Matrix (Fin 2) (Fin 2) ℝ),
    Collocation.new 2 "EQUID" "RADAU-RIGHT" = .ok c ∧ getQD ext "MIN-SR-S" (kwColl c) none = .ok ⟨2, A⟩ ∧
    (1 - A⁻¹ * c.Q) ^ 2 = 0 := by
  obtain ⟨ext, c, hc, h0, h⟩ := minsrs_example
  obtain ⟨d, h1, -, h2⟩ := C47_minsrs_nilpotent ext c hc (Or.inr rfl) h0 (fun _ => h) none
  exact ⟨ext, c, _, hc, h1, h2⟩

/-- The hypotheses of `C47_minsrs_nilpotent_left` can be met (with two nodes nothing is asked of the
root finder). -/
example : ∃ c : Collocation (1 + 1), Collocation.new (1 + 1) "LEGENDRE" "LOBATTO" = .ok c :=
  collocation_new_ok (by decide) (by decide) ⟨by decide, by decide⟩ 0 1

end QMat
