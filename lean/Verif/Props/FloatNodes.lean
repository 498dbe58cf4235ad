import Verif.Lemmas.FloatNodes
import Verif.Props.FloatCollocation

/-!
# C95: nodes in floating point arithmetic
-/

namespace QMat

open Polynomial Spec NodesGenerator

/-- Computed coefficients of the Jacobi matrix, and exact ones. -/
theorem tridiag_err {R : Rounding} (F : NodeOps) {nt qt : String} (hnt : nt ∈ ORTHO_TYPES) (hqt : qt ∈ QUAD_TYPES) {m : ℕ}
    (hn : ValidSize qt (m + 1)) (hint : ∀ k : ℕ, k ≤ 4 * (m + 1) ^ 2 → R.fl k = k) (hu : ((m + 1 : ℕ):ℝ) ^ 2 * R.u ≤ 1 / 1000)
    (hσ : qt = "LOBATTO" → 160 * (if nt = "CHEBY-3" ∨ nt = "CHEBY-4" then 2 * ((m + 1 : ℕ):ℝ) else 1) * F.σ ≤ 1) :
    ∃ α' β' α β p q, getTridiagCoefficients ⟨nt, qt⟩ (m + 1) = .ok (α', β') ∧ R.getTridiagCoefficients F ⟨nt, qt⟩ (m + 1) = .ok (α, β) ∧
      (∀ k < m + 1, |α k - α' k| ≤ p ∧ |α k| ≤ 2) ∧
      (∀ k, k + 1 < m + 1 → 0 ≤ β (k + 1) ∧ |R.fl (√(β (k + 1))) - √(β' (k + 1))| ≤ q ∧ |R.fl (√(β (k + 1)))| ≤ 2) ∧ 0 ≤ q ∧
      2 * F.θ + (p + 2 * q) ≤ nodesErr R.u F.θ F.σ nt qt (m + 1) := by
  have hu0 := R.u_nonneg
  have hm0 : (0:ℝ) ≤ m := Nat.cast_nonneg m
  obtain ⟨a, b, htri, hlast, hspec⟩ := tridiagCoefficients_spec hnt hqt hn
  have hβ : ∀ k, 1 ≤ k → k < m + 1 → ∃ φ, |φ - 1| ≤ R.u ∧ R.nodeBeta nt k = baseBeta nt k * φ := fun k h1 hk => nodeBeta_eq hnt hint h1 hk
  have hα : Rounding.nodeAlpha nt = baseAlpha nt := rfl
  have hmu : ((m:ℝ) + 1) * R.u ≤ 1 / 1000 := by
    push_cast at hu
    exact le_trans (mul_le_mul_of_nonneg_right (by nlinarith) hu0) hu
  have hu1 : R.u ≤ 1 / 1000 := by have := mul_nonneg hm0 hu0; linarith
  have hα2 : ∀ k, |baseAlpha nt k| ≤ 2 := fun k => by
    simp only [baseAlpha]; split_ifs <;> norm_num [abs_le]
  have sq : ∀ k, 1 ≤ k → k < m + 1 → 0 ≤ R.nodeBeta nt k ∧ |R.fl (√(R.nodeBeta nt k)) - √(baseBeta nt k)| ≤ 1.5 * R.u ∧
      |R.fl (√(R.nodeBeta nt k))| ≤ 2 := fun k h1 hk => by
    obtain ⟨φ, h2, h3⟩ := hβ k h1 hk
    have hb0 := (baseBeta_pos hnt h1).le
    have hb1 := baseBeta_le hnt h1
    have h4 := sqrt_rel_err hu1 hb0 hb1 h2
    rw [← h3] at h4
    refine ⟨by rw [h3]; exact mul_nonneg hb0 (by have := (abs_le.1 h2).1; linarith), h4, ?_⟩
    have h5 : √(baseBeta nt k) ≤ 1 := Real.sqrt_le_iff.2 ⟨by norm_num, by linarith⟩
    have h6 := Real.sqrt_nonneg (baseBeta nt k)
    obtain ⟨l, r⟩ := abs_le.1 h4
    rw [abs_le]
    norm_num at l r
    constructor <;> linarith
  have upd : ∀ (f : ℕ → ℝ) (v : ℝ) {k : ℕ}, k < m + 1 → k ≠ m → Function.update f m v k = f k := fun f v k _ h => Function.update_of_ne h _ _
  simp only [QUAD_TYPES, List.mem_cons, List.not_mem_nil, or_false] at hqt
  have fin1 : ∀ {β' : ℕ → ℝ}, (∀ k, 1 ≤ k → k < m + 1 → β' k = baseBeta nt k) →
      ∀ k, k + 1 < m + 1 → 0 ≤ R.nodeBeta nt (k + 1) ∧ |R.fl (√(R.nodeBeta nt (k + 1))) - √(β' (k + 1))| ≤ 1.5 * R.u ∧
        |R.fl (√(R.nodeBeta nt (k + 1)))| ≤ 2 := fun {β'} h k hk => by
    rw [h (k + 1) (by omega) hk]; exact sq (k + 1) (by omega) hk
  have hupd : ∀ {f : ℕ → ℝ}, Function.update f m (f m) = f := fun {f} => Function.update_eq_self m f
  have radau : ∀ {c : ℝ}, (c = 1 ∨ c = -1) → ∀ a, a = c * radauRight (fun k => c * baseAlpha nt k) (baseBeta nt) m → ∀ k < m + 1,
      |Function.update (baseAlpha nt) m (R.fl (c - R.fl (R.fl (R.nodeBeta nt m * (R.evalOrthogPoly c (baseAlpha nt) (R.nodeBeta nt) m).1) /
        (R.evalOrthogPoly c (baseAlpha nt) (R.nodeBeta nt) m).2))) k - Function.update (baseAlpha nt) m a k| ≤ 8 * (m + 1) * R.u ∧
      |Function.update (baseAlpha nt) m (R.fl (c - R.fl (R.fl (R.nodeBeta nt m * (R.evalOrthogPoly c (baseAlpha nt) (R.nodeBeta nt) m).1) /
        (R.evalOrthogPoly c (baseAlpha nt) (R.nodeBeta nt) m).2))) k| ≤ 2 := fun {c} hc a ha k hk => by
    obtain ⟨-, h1⟩ := radau_err hnt hc hu hβ
    by_cases hkm : k = m
    · subst hkm
      rw [Function.update_self, Function.update_self, ha]
      refine ⟨h1, ?_⟩
      have h2 : |c * radauRight (fun j => c * baseAlpha nt j) (baseBeta nt) k| ≤ 1 := by
        rw [abs_mul, show |c| = 1 by rcases hc with rfl | rfl <;> simp, one_mul]
        obtain ⟨ρ, hρ, -⟩ := ratio_half hnt hc
        have h3 := (hρ.radau k).2.1
        have h4 : radauRight (fun j => c * baseAlpha nt j) (baseBeta nt) k ≤ 1 := by
          rw [radauRight]
          have : 0 ≤ baseBeta nt k * (prevPoly (fun j => c * baseAlpha nt j) (baseBeta nt) k).eval 1 /
              (orthPoly (fun j => c * baseAlpha nt j) (baseBeta nt) k).eval 1 := by
            rcases Nat.eq_zero_or_pos k with rfl | h0
            · simp [prevPoly]
            · exact div_nonneg (mul_nonneg (baseBeta_pos hnt h0).le (hρ.prev_nonneg le_rfl k)) (hρ.eval_pos le_rfl k).le
          linarith
        rw [abs_of_pos h3]; exact h4
      rw [abs_le] at h1 h2 ⊢
      constructor <;> linarith [h1.1, h1.2, h2.1, h2.2]
    · rw [upd _ _ hk hkm, upd _ _ hk hkm, sub_self, abs_zero]
      exact ⟨by positivity, hα2 k⟩
  rcases hqt with rfl | rfl | rfl | rfl
  · rcases hlast with ⟨-, rfl, rfl⟩ | ⟨h, -⟩ | ⟨h, -⟩ | ⟨h, -⟩
    · rw [hupd, hupd] at htri
      refine ⟨_, _, baseAlpha nt, R.nodeBeta nt, 0, 1.5 * R.u, htri, ?_, fun k hk => ⟨by simp, hα2 k⟩, fin1 fun k _ _ => rfl, by positivity, ?_⟩
      · simp [Rounding.getTridiagCoefficients, show pyStartsWith "GAUSS" "RADAU" = false by decide, hα, pure, Except.pure]
      · rw [nodesErr, if_pos rfl]; norm_num; linarith
    all_goals exact absurd h (by decide)
  · rcases hlast with ⟨h, -⟩ | ⟨h, -⟩ | ⟨-, rfl, rfl⟩ | ⟨h, -⟩
    · exact absurd h (by decide)
    · exact absurd h (by decide)
    · rw [hupd] at htri
      have hc : (-1:ℝ) = 1 ∨ (-1:ℝ) = -1 := Or.inr rfl
      obtain ⟨h0, -⟩ := radau_err hnt hc hu hβ
      refine ⟨_, _, _, R.nodeBeta nt, 8 * (m + 1) * R.u, 1.5 * R.u, htri, ?_, radau hc _ ?_, fin1 fun k _ _ => rfl, by positivity, ?_⟩
      · simp [Rounding.getTridiagCoefficients, show pyStartsWith "RADAU-LEFT" "RADAU" = true by decide,
          show pyEndsWith "RADAU-LEFT" "LEFT" = true by decide, hα, h0, pure, Except.pure]
      · simp only [neg_one_mul]
        rw [radauLeft_neg, neg_neg]
      · rw [nodesErr, if_neg (by decide), if_neg (by decide)]; push_cast; norm_num; linarith
    · exact absurd h (by decide)
  · rcases hlast with ⟨h, -⟩ | ⟨-, rfl, rfl⟩ | ⟨h, -⟩ | ⟨h, -⟩
    · exact absurd h (by decide)
    · rw [hupd] at htri
      have hc : (1:ℝ) = 1 ∨ (1:ℝ) = -1 := Or.inl rfl
      obtain ⟨h0, -⟩ := radau_err hnt hc hu hβ
      refine ⟨_, _, _, R.nodeBeta nt, 8 * (m + 1) * R.u, 1.5 * R.u, htri, ?_, radau hc _ ?_, fin1 fun k _ _ => rfl, by positivity, ?_⟩
      · simp [Rounding.getTridiagCoefficients, show pyStartsWith "RADAU-RIGHT" "RADAU" = true by decide,
          show pyEndsWith "RADAU-RIGHT" "LEFT" = false by decide, hα, h0, pure, Except.pure]
      · simp only [one_mul]
      · rw [nodesErr, if_neg (by decide), if_neg (by decide)]; push_cast; norm_num; linarith
    · exact absurd h (by decide)
    · exact absurd h (by decide)
  · rcases hlast with ⟨h, -⟩ | ⟨h, -⟩ | ⟨h, -⟩ | ⟨-, hm, hb⟩
    · exact absurd h (by decide)
    · exact absurd h (by decide)
    · exact absurd h (by decide)
    · obtain ⟨k, rfl⟩ : ∃ k, m = k + 1 := ⟨m - 1, by omega⟩
      have hs := hσ rfl
      have hκle : (if nt = "CHEBY-3" ∨ nt = "CHEBY-4" then 2 * (k:ℝ) + 1 else 1) ≤
          (if nt = "CHEBY-3" ∨ nt = "CHEBY-4" then 2 * ((k + 1 + 1 : ℕ):ℝ) else 1) := by
        split_ifs
        · push_cast; linarith
        · exact le_rfl
      set κ := (if nt = "CHEBY-3" ∨ nt = "CHEBY-4" then 2 * (k:ℝ) + 1 else 1) with hκ
      set κ' := (if nt = "CHEBY-3" ∨ nt = "CHEBY-4" then 2 * ((k + 1 + 1 : ℕ):ℝ) else 1) with hκ'
      have hσ0 := F.σ_nonneg
      have hκσ := mul_le_mul_of_nonneg_right hκle hσ0
      obtain ⟨x, y, hsol, dx, hx, hy, dy, hy1⟩ := lobatto_err F hnt hu hβ hκ (by linarith) hb (by simpa using hspec)
      have hκ1 : 1 ≤ κ := by rw [hκ]; split_ifs <;> linarith
      have hk0 : (0:ℝ) ≤ k := Nat.cast_nonneg k
      have hE0 : 0 ≤ ((k:ℝ) + 1) * R.u := by positivity
      have hκσ0 : 0 ≤ κ * F.σ := by positivity
      refine ⟨_, _, Function.update (baseAlpha nt) (k + 1) x, Function.update (R.nodeBeta nt) (k + 1) y,
        2.1 * (13 * (k + 1) * R.u) + 1.1 * R.u + 9 * (1.6 * κ * F.σ),
        1.42 * (6.4 * (13 * (k + 1) * R.u) + 3.3 * R.u + 18 * (1.6 * κ * F.σ)) + 1.4 * R.u, htri, ?_, fun j hj => ?_, fun j hj => ?_, by positivity, ?_⟩
      · simp only [Rounding.getTridiagCoefficients, show pyStartsWith "LOBATTO" "RADAU" = false by decide, hα, pure, Except.pure, bind,
          Except.bind, Nat.add_sub_cancel]
        rw [hsol]
        simp
      · by_cases hjk : j = k + 1
        · subst hjk
          rw [Function.update_self, Function.update_self]
          exact ⟨dx, hx.trans (by norm_num)⟩
        · rw [Function.update_of_ne hjk, Function.update_of_ne hjk, sub_self, abs_zero]
          exact ⟨by positivity, hα2 j⟩
      · by_cases hjk : j + 1 = k + 1
        · rw [hjk, Function.update_self, Function.update_self]
          refine ⟨hy.le, dy, ?_⟩
          have h1 := R.err (√y)
          have h2 := Real.sqrt_nonneg y
          rw [abs_of_nonneg h2] at h1
          have h3 := mul_le_mul_of_nonneg_right hu1 h2
          rw [abs_le] at h1 ⊢
          norm_num at hy1
          constructor <;> linarith [h1.1, h1.2]
        · rw [Function.update_of_ne hjk, Function.update_of_ne hjk]
          obtain ⟨h1, h2, h3⟩ := sq (j + 1) (by omega) hj
          refine ⟨h1, h2.trans ?_, h3⟩
          norm_num
          linarith
      · rw [nodesErr, if_neg (by decide), if_pos rfl, ← hκ']
        push_cast
        norm_num
        linarith

/-- C95: nodes computed with rounded operations, approximate eigenvalues and approximate solutions of the system of the LOBATTO type are close to
the exact ones, and end nodes are exactly `-1` and `1` where they are asked for. -/
theorem C95_nodes {R : Rounding} (F : NodeOps) {nt qt : String} (hnt : nt ∈ ORTHO_TYPES) (hqt : qt ∈ QUAD_TYPES) {n : ℕ} (hn : ValidSize qt n)
    (hint : ∀ k : ℕ, k ≤ 4 * n ^ 2 → R.fl k = k) (hu : (n:ℝ) ^ 2 * R.u ≤ 1 / 1000)
    (hσ : qt = "LOBATTO" → 160 * (if nt = "CHEBY-3" ∨ nt = "CHEBY-4" then 2 * (n:ℝ) else 1) * F.σ ≤ 1) :
    ∃ x raw, getNodes ⟨nt, qt⟩ n = .ok x ∧ R.getEigenvalues F ⟨nt, qt⟩ n = .ok raw ∧ (∀ i, |raw i - x i| ≤ nodesErr R.u F.θ F.σ nt qt n) ∧
      ∃ y, R.getNodes F ⟨nt, qt⟩ n = .ok y ∧ (∀ i, |y i - x i| ≤ nodesErr R.u F.θ F.σ nt qt n) ∧
        (qt = "LOBATTO" ∨ qt = "RADAU-LEFT" → y ⟨0, hn.1⟩ = -1) ∧
        (qt = "LOBATTO" ∨ qt = "RADAU-RIGHT" → y ⟨n - 1, Nat.sub_lt hn.1 one_pos⟩ = 1) := by
  obtain ⟨m, rfl⟩ : ∃ m, n = m + 1 := ⟨n - 1, by have := hn.1; omega⟩
  obtain ⟨x, _, _, hx, -, -, -, -, α0, β0, htri0, hx0⟩ := getNodes_ortho hnt hqt hn
  obtain ⟨α', β', α, β, p, q, htri, hfl, hα, hβ, hq, herr⟩ := tridiag_err F hnt hqt hn hint hu hσ
  rw [htri] at htri0
  obtain ⟨rfl, rfl⟩ : α' = α0 ∧ β' = β0 := by simpa using htri0
  set raw := npSort (F.eigh (m + 1) α fun k => R.fl (√(β (k + 1))))
  have hraw : R.getEigenvalues F ⟨nt, qt⟩ (m + 1) = .ok raw := by
    have hneg : ¬ ∃ k, 1 ≤ k ∧ k < m + 1 ∧ β k < 0 := by
      rintro ⟨k, h1, h2, h3⟩
      obtain ⟨j, rfl⟩ : ∃ j, k = j + 1 := ⟨k - 1, by omega⟩
      exact absurd h3 (not_lt.2 (hβ j h2).1)
    unfold Rounding.getEigenvalues
    rw [hfl]
    simp only [bind, Except.bind, pure, Except.pure, if_neg hneg]
    rfl
  have hrawerr : ∀ i, |raw i - x i| ≤ nodesErr R.u F.θ F.σ nt qt (m + 1) := fun i => by
    have h1 := F.eigh_err (m + 1) α (fun k => R.fl (√(β (k + 1)))) 2 (fun k hk => (hα k hk).2) (fun k hk => (hβ k hk).2.2) i
    have h2 := tridiagonal_eigenvalues_err (d := α) (d' := α') (e := fun k => R.fl (√(β (k + 1)))) (e' := fun k => √(β' (k + 1)))
      (fun k hk => (hα k hk).1) (fun k hk => (hβ k hk).2.1) hq i
    rw [hx0]
    refine (abs_sub_le _ _ _).trans ((add_le_add h1 h2).trans ?_)
    linarith
  refine ⟨x, raw, hx, hraw, hrawerr, overwriteEnds qt (by omega) raw, ?_, ?_, ?_, ?_⟩
  · have hE : nt ≠ "EQUID" := by
      rintro rfl
      exact absurd hnt (by decide)
    unfold Rounding.getNodes
    have h1 : ¬ ((qt = "LOBATTO" ∨ qt = "RADAU-LEFT") ∧ m + 1 < 2) := fun h => by have := hn.2 h.1; omega
    simp only [h1, if_false, hE, false_and, show ¬ m + 1 < 1 by omega, dite_false, hraw, bind, Except.bind, pure, Except.pure]
  · exact overwriteEnds_err (by
      simp only [ORTHO_TYPES, NODE_TYPES, List.mem_cons, List.not_mem_nil, or_false] at hnt ⊢
      tauto) hqt (by omega) hx hrawerr
  · intro h
    simp only [overwriteEnds]
    rw [if_pos h, Function.update_self]
  · intro h
    simp only [overwriteEnds]
    rw [if_pos h]
    split_ifs with h2
    · rw [Function.update_of_ne, Function.update_self]
      intro h3
      have := hn.2 h2
      rw [Fin.mk.injEq] at h3
      omega
    · rw [Function.update_self]

/-! ### Equidistant nodes -/

theorem linspace_err {R : Rounding} (hu : R.u ≤ 1 / 1000) (h2 : R.fl 2 = 2) {num i : ℕ} (hnum : 2 ≤ num) (hi : i < num) :
    |R.linspace num i - npLinspace (-1) 1 num i| ≤ 6 * R.u := by
  have hu0 := R.u_nonneg
  have hn : (0:ℝ) < num - 1 := by
    have : (2:ℝ) ≤ num := by exact_mod_cast hnum
    linarith
  unfold Rounding.linspace npLinspace
  split_ifs with h
  · have hi' : (i:ℝ) = num - 1 := by rw [← h]; push_cast; ring
    rw [hi', mul_div_cancel₀ _ hn.ne']
    norm_num
    exact hu0
  · rw [show (1:ℝ) - -1 = 2 by norm_num, h2, Nat.cast_sub (by omega), Nat.cast_one]
    have hi0 : (0:ℝ) ≤ i := Nat.cast_nonneg i
    have hr1 : (i:ℝ) / (num - 1) ≤ 1 := by
      rw [div_le_one hn, le_sub_iff_add_le]
      exact_mod_cast hi
    have hr0 : 0 ≤ (i:ℝ) / (num - 1) := div_nonneg hi0 hn.le
    obtain ⟨φ, f1, f2⟩ := R.fl_rel (2 / ((num:ℝ) - 1))
    obtain ⟨ψ, p1, p2⟩ := R.fl_rel (i * R.fl (2 / ((num:ℝ) - 1)))
    have h3 := R.err (R.fl (i * R.fl (2 / ((num:ℝ) - 1))) + -1)
    rw [p2, f2] at h3 ⊢
    have e1 : (i:ℝ) * (2 / (num - 1) * φ) * ψ = 2 * (i / (num - 1)) * (φ * ψ) := by ring
    have e2 : (i:ℝ) * (2 / (num - 1)) = 2 * (i / (num - 1)) := by ring
    rw [e1] at h3 ⊢
    rw [e2]
    set r := (i:ℝ) / (num - 1)
    have hφψ : |φ * ψ - 1| ≤ 2.1 * R.u := by
      have e3 : φ * ψ - 1 = (φ - 1) * (ψ - 1) + (φ - 1) + (ψ - 1) := by ring
      have h4 : |(φ - 1) * (ψ - 1)| ≤ R.u * (1 / 1000) := by
        rw [abs_mul]; exact mul_le_mul f1 (p1.trans hu) (abs_nonneg _) hu0
      rw [e3]
      refine (abs_add_three _ _ _).trans ?_
      norm_num at h4 ⊢
      linarith
    have h5 : |2 * r * (φ * ψ) - 2 * r| ≤ 4.2 * R.u := by
      rw [show 2 * r * (φ * ψ) - 2 * r = 2 * r * (φ * ψ - 1) by ring, abs_mul, abs_of_nonneg (by linarith)]
      refine (mul_le_mul (by linarith : 2 * r ≤ 2) hφψ (abs_nonneg _) (by norm_num)).trans ?_
      norm_num
      linarith
    have h6 : |2 * r * (φ * ψ) + -1| ≤ 1.1 := by
      rw [abs_le] at h5 ⊢
      norm_num at h5 ⊢
      constructor <;> linarith [h5.1, h5.2]
    have h7 := h3.trans (mul_le_mul_of_nonneg_left h6 hu0)
    rw [abs_le] at h5 h7 ⊢
    norm_num at h5 h7
    constructor <;> linarith [h5.1, h5.2, h7.1, h7.2]

theorem linspace_last (R : Rounding) {num i : ℕ} (h : i + 1 = num) : R.linspace num i = 1 := by
  rw [Rounding.linspace, if_pos h]

theorem linspace_first {R : Rounding} (h : R.fl (-1) = -1) {num : ℕ} (hnum : 2 ≤ num) : R.linspace num 0 = -1 := by
  rw [Rounding.linspace, if_neg (by omega), Nat.cast_zero, zero_mul, R.fl_zero, zero_add, h]

/-- C95, equidistant nodes: errors are at most `6 u`, and end nodes are exactly `-1` and `1` where they are asked for. -/
theorem C95_equid {R : Rounding} (F : NodeOps) {qt : String} (hqt : qt ∈ QUAD_TYPES) {n : ℕ} (hn : ValidSize qt n) (hu : R.u ≤ 1 / 1000)
    (h2 : R.fl 2 = 2) (h1 : R.fl (-1) = -1) :
    ∃ x y, getNodes ⟨"EQUID", qt⟩ n = .ok x ∧ R.getNodes F ⟨"EQUID", qt⟩ n = .ok y ∧ (∀ i, |y i - x i| ≤ 6 * R.u) ∧
      (qt = "LOBATTO" ∨ qt = "RADAU-LEFT" → y ⟨0, hn.1⟩ = -1) ∧
      (qt = "LOBATTO" ∨ qt = "RADAU-RIGHT" → y ⟨n - 1, Nat.sub_lt hn.1 one_pos⟩ = 1) := by
  have hn1 := hn.1
  have hg : ¬ n < 1 := by omega
  simp only [QUAD_TYPES, List.mem_cons, List.not_mem_nil, or_false] at hqt
  rcases hqt with rfl | rfl | rfl | rfl
  · refine ⟨fun i => npLinspace (-1) 1 (n + 2) (i + 1), fun i => R.linspace (n + 2) (i + 1), by simp [getNodes, hg],
      by simp [Rounding.getNodes, hg], fun i => linspace_err hu h2 (by omega) (by omega), fun h => absurd h (by decide), fun h => absurd h (by decide)⟩
  · have h3 : ¬ n < 2 := by have := hn.2 (Or.inr rfl); omega
    refine ⟨fun i => npLinspace (-1) 1 (n + 1) i, fun i => R.linspace (n + 1) i, by simp [getNodes, hg, h3],
      by simp [Rounding.getNodes, hg, h3], fun i => linspace_err hu h2 (by omega) (by omega), fun _ => linspace_first h1 (by omega),
      fun h => absurd h (by decide)⟩
  · refine ⟨fun i => npLinspace (-1) 1 (n + 1) (i + 1), fun i => R.linspace (n + 1) (i + 1), by simp [getNodes, hg],
      by simp [Rounding.getNodes, hg], fun i => linspace_err hu h2 (by omega) (by omega), fun h => absurd h (by decide),
      fun _ => linspace_last R ?_⟩
    show n - 1 + 1 + 1 = n + 1
    omega
  · have h3 : ¬ n < 2 := by have := hn.2 (Or.inl rfl); omega
    refine ⟨fun i => npLinspace (-1) 1 n i, fun i => R.linspace n i, by simp [getNodes, hg, h3],
      by simp [Rounding.getNodes, hg, h3], fun i => linspace_err hu h2 (by omega) (by omega), fun _ => linspace_first h1 (by omega),
      fun _ => linspace_last R ?_⟩
    show n - 1 + 1 = n
    omega

/-! ### Collocation methods -/

/-- C95, collocation methods: the constructor of `Collocation` in rounded arithmetic, with nodes computed in rounded arithmetic as well. -/
theorem C95_collocation {R : Rounding} {F : FejerOps} (E : NodeOps) {M m : ℕ} {nt qt : String} {a b B δ τ η : ℝ}
    (H : CollocationHyps R F M m a b B (nodesErr R.u E.θ E.σ nt qt M) δ τ η) (hab : a < b) (hB : LebesgueType nt qt M B)
    (hqt : qt ∈ QUAD_TYPES) (hM : 0 < M) (hn : ValidSize qt M)
    (hint : ∀ k : ℕ, k ≤ 4 * M ^ 2 → R.fl k = k) (hu : (M:ℝ) ^ 2 * R.u ≤ 1 / 1000)
    (hσ : qt = "LOBATTO" → 160 * (if nt = "CHEBY-3" ∨ nt = "CHEBY-4" then 2 * (M:ℝ) else 1) * E.σ ≤ 1) :
    ∃ c S raw, Collocation.new M nt qt a b = .ok c ∧ c.S = .ok S ∧ R.getEigenvalues E ⟨nt, qt⟩ M = .ok raw ∧
    (∃ nodes Q' w' S', R.CollocationArrays F qt hM raw a b nodes Q' w' ∧ R.CollocationS F a nodes S') ∧
    ∀ nodes Q' w' S', R.CollocationArrays F qt hM raw a b nodes Q' w' → R.CollocationS F a nodes S' →
      (∀ i, |nodes i - c.nodes i| ≤ δ) ∧ (∀ i j, |Q' i j - c.Q i j| ≤ collocationErr R.u M m (b - a) B δ τ η) ∧
      (∀ j, |w' j - c.weights j| ≤ collocationErr R.u M m (b - a) B δ τ η) ∧
      (∀ i j, |S' i j - S i j| ≤ collocationErr R.u M m (b - a) B δ τ η) ∧
      (δ ≤ 1 / (2 * 10 ^ 8) → (qt = "LOBATTO" ∨ qt = "RADAU-LEFT" → nodes ⟨0, hM⟩ = a) ∧
        (qt = "LOBATTO" ∨ qt = "RADAU-RIGHT" → nodes ⟨M - 1, by omega⟩ = b)) := by
  have hnt := hB.ortho
  have hnt' : nt ∈ NODE_TYPES := by
    simp only [ORTHO_TYPES, NODE_TYPES, List.mem_cons, List.not_mem_nil, or_false] at hnt ⊢
    tauto
  obtain ⟨c, hc⟩ := collocation_new_ok hnt' hqt hn a b
  obtain ⟨x, raw, hx, hraw, herr, -⟩ := C95_nodes (R := R) E hnt hqt hn hint hu hσ
  obtain ⟨S, hS, hex, h⟩ := C94_collocation H hab hB c hc x hx hM herr
  exact ⟨c, S, raw, hc, hS, hraw, hex, h⟩

theorem nodesErr_nonneg {u θ σ : ℝ} (hu : 0 ≤ u) (hθ : 0 ≤ θ) (hσ : 0 ≤ σ) (nt qt : String) (n : ℕ) : 0 ≤ nodesErr u θ σ nt qt n := by
  unfold nodesErr
  split_ifs <;> positivity

theorem nodesErr_double (E : NodeOps) {M : ℕ} (hM' : M ≤ 100) (nt qt : String) (hθ : E.θ ≤ 1 / 10 ^ 14) (hσ : E.σ ≤ 1 / 10 ^ 14) :
    nodesErr double.u E.θ E.σ nt qt M ≤ 2 / 10 ^ 10 ∧
    (¬ (qt = "LOBATTO" ∧ (nt = "CHEBY-3" ∨ nt = "CHEBY-4")) → nodesErr double.u E.θ E.σ nt qt M ≤ 5 / 10 ^ 12) := by
  have hMr : (M:ℝ) ≤ 100 := by exact_mod_cast hM'
  have hu : double.u ≤ 12 / 10 ^ 17 := by rw [double_u]; norm_num
  have hu0 := double.u_nonneg
  have hMu : (M:ℝ) * double.u ≤ 100 * (12 / 10 ^ 17) := mul_le_mul hMr hu hu0 (by norm_num)
  have := E.θ_nonneg
  have := E.σ_nonneg
  have hMσ : (M:ℝ) * E.σ ≤ 100 * (1 / 10 ^ 14) := mul_le_mul hMr hσ E.σ_nonneg (by norm_num)
  constructor
  · rw [nodesErr]
    norm_num at hMu hMσ hu hθ hσ ⊢
    split_ifs <;> linarith
  · intro h
    rw [nodesErr]
    norm_num at hMu hu hθ hσ ⊢
    split_ifs with h1 h2 h3
    · linarith
    · exact absurd ⟨h2, h3⟩ h
    · linarith
    · linarith

/-- C95, double precision: up to a hundred nodes on `[0, 1]`, with errors of at most `10⁻¹⁴` in the eigenvalues and the system of the LOBATTO type,
relative to the sizes of entries.  The bound `nodesErr` is at most `2·10⁻¹⁰`, and at most `5·10⁻¹²` except for CHEBY-3 and CHEBY-4 with LOBATTO. -/
theorem C95_double {F : FejerOps} (E : NodeOps) (hv : F.v ≤ 1 / 10 ^ 15) {M m : ℕ} (hM : 0 < M) (hM' : M ≤ 100) (hm : m = M - (M + 1) % 2)
    (hη : 4 * F.κ / m + 4 * (1 + F.κ) * F.ρ / √m ≤ 1 / 10 ^ 15) {nt qt : String} {B : ℝ} (hB : LebesgueType nt qt M B) (hqt : qt ∈ QUAD_TYPES)
    (hn : ValidSize qt M) (hθ : E.θ ≤ 1 / 10 ^ 14) (hσ : E.σ ≤ 1 / 10 ^ 14) :
    ∃ c S raw e, Collocation.new M nt qt 0 1 = .ok c ∧ c.S = .ok S ∧ double.getEigenvalues E ⟨nt, qt⟩ M = .ok raw ∧
    e = nodesErr double.u E.θ E.σ nt qt M ∧ e ≤ 2 / 10 ^ 10 ∧ (¬ (qt = "LOBATTO" ∧ (nt = "CHEBY-3" ∨ nt = "CHEBY-4")) → e ≤ 5 / 10 ^ 12) ∧
    (∃ nodes Q' w' S', double.CollocationArrays F qt hM raw 0 1 nodes Q' w' ∧ double.CollocationS F 0 nodes S') ∧
    ∀ nodes Q' w' S', double.CollocationArrays F qt hM raw 0 1 nodes Q' w' → double.CollocationS F 0 nodes S' →
      (∀ i, |nodes i - c.nodes i| ≤ e / 2 + 1 / 10 ^ 15) ∧ (∀ i j, |Q' i j - c.Q i j| ≤ (M:ℝ) ^ 2 * B ^ 2 * (12 * e + 1 / 10 ^ 13)) ∧
      (∀ j, |w' j - c.weights j| ≤ (M:ℝ) ^ 2 * B ^ 2 * (12 * e + 1 / 10 ^ 13)) ∧
      (∀ i j, |S' i j - S i j| ≤ (M:ℝ) ^ 2 * B ^ 2 * (12 * e + 1 / 10 ^ 13)) ∧
      (qt = "LOBATTO" ∨ qt = "RADAU-LEFT" → nodes ⟨0, hM⟩ = 0) ∧
      (qt = "LOBATTO" ∨ qt = "RADAU-RIGHT" → nodes ⟨M - 1, by omega⟩ = 1) := by
  have hMr : (M:ℝ) ≤ 100 := by exact_mod_cast hM'
  have h1r : (1:ℝ) ≤ M := by exact_mod_cast hM
  obtain ⟨he, he2⟩ := nodesErr_double E hM' nt qt hθ hσ
  have hM2 : (M:ℝ) ^ 2 ≤ 10000 := by nlinarith
  have hnt := hB.ortho
  obtain ⟨c, hc⟩ := collocation_new_ok (nt := nt) (List.mem_of_mem_tail (by exact hnt)) hqt hn 0 1
  obtain ⟨x, raw, hx, hraw, herr, -⟩ := C95_nodes (R := double) E hnt hqt hn
    (fun k hk => double_nat (by have : M ^ 2 ≤ 100 ^ 2 := Nat.pow_le_pow_left hM' 2; omega))
    ((mul_le_mul_of_nonneg_right hM2 double.u_nonneg).trans (by rw [double_u]; norm_num))
    (fun _ => by
      have := E.σ_nonneg
      have hMσ : (M:ℝ) * E.σ ≤ 100 * (1 / 10 ^ 14) := mul_le_mul hMr hσ this (by norm_num)
      norm_num at hMσ hσ
      split_ifs <;> linarith)
  obtain ⟨S, hS, hex, h⟩ := C94_double hv hM hM' hm hη hB c hc x hx (he.trans (by norm_num)) herr
  exact ⟨c, S, raw, _, hc, hS, hraw, rfl, he, he2, hex, h⟩

/-! ### Instances -/

/-- Exact eigenvalues and solutions. -/
noncomputable def exactNodeOps : NodeOps where
  eigh := eighTridiagonal
  θ := 0
  θ_nonneg := le_rfl
  eigh_err n d e K _ _ i := by rw [sub_self, abs_zero, zero_mul]
  solve2 := npSolve2
  σ := 0
  σ_nonneg := le_rfl
  solve2_err a11 a12 a21 a22 f1 f2 K _ _ _ _ h := by
    rw [zero_mul] at h
    have hd := abs_pos.1 h
    refine ⟨_, _, if_neg hd, ?_, ?_⟩
    all_goals
      rw [zero_mul, zero_mul, abs_nonpos_iff, sub_eq_zero, mul_div_assoc', mul_div_assoc', ← add_div, div_eq_iff hd]
      ring

/-- The same, with room for errors of the eigenvalues. -/
noncomputable def roundedNodeOps : NodeOps :=
  { exactNodeOps with
    eigh := fun n d e i => eighTridiagonal n d e i
    θ := 1 / 10 ^ 14
    θ_nonneg := by norm_num
    eigh_err := fun n d e K hd _ i => by
      rw [sub_self, abs_zero]
      exact mul_nonneg (by norm_num) ((abs_nonneg _).trans (hd 0 (Nat.pos_of_ne_zero (fun h => by subst h; exact i.elim0)))) }

/-- Instance: ten Chebyshev nodes of the fourth kind with both ends, in double precision. -/
example : ∃ x y, getNodes ⟨"CHEBY-4", "LOBATTO"⟩ 10 = .ok x ∧ double.getNodes roundedNodeOps ⟨"CHEBY-4", "LOBATTO"⟩ 10 = .ok y ∧
    (∀ i, |y i - x i| ≤ 1 / 10 ^ 12) ∧ y 0 = -1 ∧ y 9 = 1 := by
  obtain ⟨x, raw, hx, -, -, y, hy, herr, hl, hr⟩ := C95_nodes (R := double) roundedNodeOps (nt := "CHEBY-4") (qt := "LOBATTO") (by decide)
    (by decide) (n := 10) ⟨by norm_num, fun _ => by norm_num⟩ (fun k hk => double_nat (by omega)) (by rw [double_u]; norm_num)
    (fun _ => by show 160 * _ * (0:ℝ) ≤ 1; norm_num)
  refine ⟨x, y, hx, hy, fun i => (herr i).trans ?_, hl (Or.inl rfl), hr (Or.inl rfl)⟩
  show nodesErr double.u (1 / 10 ^ 14) 0 _ _ _ ≤ _
  rw [nodesErr, if_neg (by decide), if_pos rfl, double_u]
  norm_num

theorem double_neg_one : double.fl (-1) = -1 := by
  refine Rounding.nearest_eq_self (m := -2 ^ 52) ?_
  rw [show Rounding.lastExp 53 (-1) = -52 by simp [Rounding.lastExp]]
  norm_num

/-- Instance: seven equidistant nodes in double precision. -/
example : ∃ y, double.getNodes exactNodeOps ⟨"EQUID", "LOBATTO"⟩ 7 = .ok y ∧ y 0 = -1 ∧ y 6 = 1 := by
  obtain ⟨x, y, -, hy, -, hl, hr⟩ := C95_equid (R := double) exactNodeOps (qt := "LOBATTO") (by decide) (n := 7)
    ⟨by norm_num, fun _ => by norm_num⟩ (by rw [double_u]; norm_num)
    (by exact_mod_cast double_nat (k := 2) (by norm_num)) double_neg_one
  exact ⟨y, hy, hl (Or.inl rfl), hr (Or.inl rfl)⟩

/-- Instance: five Lobatto nodes on `[0, 1]` in double precision. -/
example : ∃ c raw nodes Q w, Collocation.new 5 "LEGENDRE" "LOBATTO" 0 1 = .ok c ∧
    double.getEigenvalues roundedNodeOps ⟨"LEGENDRE", "LOBATTO"⟩ 5 = .ok raw ∧
    double.CollocationArrays double.fejerOps "LOBATTO" (by norm_num) raw 0 1 nodes Q w ∧ nodes 0 = 0 ∧ nodes 4 = 1 ∧
      ∀ i j, |Q i j - c.Q i j| ≤ 1 / 10 ^ 7 := by
  obtain ⟨c, S, raw, e, hc, hS, hraw, -, -, he, ⟨nodes, Q, w, S', h1, h2⟩, hall⟩ := C95_double (F := double.fejerOps) roundedNodeOps
    (by show double.u ≤ _; rw [double_u]; norm_num) (M := 5) (by norm_num) (by norm_num) (m := 5) rfl
    (by show 4 * double.u / (5:ℕ) + 4 * (1 + double.u) * 0 / √(5:ℕ) ≤ _; rw [double_u]; norm_num) (nt := "LEGENDRE") (qt := "LOBATTO") (Or.inl ⟨rfl, rfl⟩) (by decide)
    ⟨by norm_num, fun _ => by norm_num⟩ le_rfl (by show (0:ℝ) ≤ _; norm_num)
  obtain ⟨-, hQ, -, -, hl, hr⟩ := hall nodes Q w S' h1 h2
  refine ⟨c, raw, nodes, Q, w, hc, hraw, h1, hl (Or.inl rfl), hr (Or.inl rfl), fun i j => (hQ i j).trans ?_⟩
  have := he (by decide)
  norm_num at this ⊢
  linarith

end QMat
