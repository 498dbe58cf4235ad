import Verif.Model.FloatFlex
import Verif.Props.ExactError
import Verif.Props.FlexAfter

/-!
# C100, C102: `MIN-SR-FLEX` in rounded arithmetic
-/

namespace QMat

open Finset Spec Matrix Rounding

variable {R : Rounding} {M : ℕ}

theorem rounded_flex (S : PyResult (Matrix (Fin M) (Fin M) ℝ)) (x : Fin M → ℝ) (t : ℝ) (k : ℕ) (hkM : k < M) (k' : Option ℤ) :
    R.computeMINSRFLEX S x (some (k + 1)) = R.computeQDelta x t k' (.DNODES (k + 1)) := by
  have hk : (1:ℤ) ≤ k + 1 := by omega
  simp only [Rounding.computeMINSRFLEX, checkK_pos hk, bind, Except.bind, pure, Except.pure, Rounding.computeQDelta, dividedNodes]
  rw [if_pos (by omega)]
  congr 1
  ext i j
  by_cases h : i = j
  · subst h
    simp
  · simp [Matrix.diagonal_apply_ne _ h, R.fl_zero]

/-- C100: the `k`-th sweep of `MIN-SR-FLEX` in rounded arithmetic, `1 ≤ k ≤ M`, on nodes that differ from those of the collocation by at most `e`:
one rounding of each coefficient and the error of the nodes over `k`. -/
theorem C100_flex (ext : ExternalNum) {nt qt : String} (c : Collocation M) (hc : Collocation.new M nt qt = .ok c)
    (S : PyResult (Matrix (Fin M) (Fin M) ℝ)) (x' : Fin M → ℝ) (e : ℝ) (he : ∀ i, |x' i - c.nodes i| ≤ e) (k : ℤ) (hk : 1 ≤ k) (hkM : k ≤ M) :
    ∃ D D' : Matrix (Fin M) (Fin M) ℝ, getQD ext "MIN-SR-FLEX" (kwColl c) (some k) = .ok ⟨M, D⟩ ∧ R.computeMINSRFLEX S x' (some k) = .ok D' ∧
      (∀ i j, i ≠ j → D' i j = 0) ∧ ∀ i, |D' i i - D i i| ≤ R.u * |D i i| + (1 + R.u) * (e / k) := by
  refine ⟨_, Matrix.diagonal fun i => R.fl (x' i / k), (C48_flex ext c hc k hk hkM).1, ?_, fun i j h => Matrix.diagonal_apply_ne _ h, fun i => ?_⟩
  · simp only [Rounding.computeMINSRFLEX, checkK_pos hk, bind, Except.bind, pure, Except.pure]
    rw [if_pos hkM]
  have hk0 : (0:ℝ) < k := by exact_mod_cast (by omega : 0 < k)
  simp only [Matrix.diagonal_apply_eq]
  have h1 := R.err (x' i / k)
  have h2 : |x' i / k - c.nodes i / k| ≤ e / k := by
    rw [← sub_div, abs_div, abs_of_pos hk0]
    exact div_le_div_of_nonneg_right (he i) hk0.le
  have h3 : |x' i / k| ≤ |c.nodes i / k| + e / k := by
    have := abs_sub_abs_le_abs_sub (x' i / k) (c.nodes i / k)
    linarith
  have h4 := abs_sub_le (R.fl (x' i / k)) (x' i / k) (c.nodes i / k)
  have h5 := mul_le_mul_of_nonneg_left h3 R.u_nonneg
  linarith

/-- Instance: the third sweep on five Radau nodes that are read with an error of `10⁻¹⁴`. -/
example (ext : ExternalNum) (S : PyResult (Matrix (Fin 5) (Fin 5) ℝ)) : ∃ c : Collocation 5, Collocation.new 5 "LEGENDRE" "RADAU-RIGHT" = .ok c ∧
    ∃ D D' : Matrix (Fin 5) (Fin 5) ℝ, getQD ext "MIN-SR-FLEX" (kwColl c) (some 3) = .ok ⟨5, D⟩ ∧
      double.computeMINSRFLEX S (fun i => c.nodes i + 1 / 10 ^ 14) (some 3) = .ok D' ∧ (∀ i j, i ≠ j → D' i j = 0) ∧
      ∀ i, |D' i i - D i i| ≤ double.u * |D i i| + (1 + double.u) * (1 / 10 ^ 14 / (3:ℤ)) := by
  obtain ⟨c, hc⟩ := collocation_new_ok (M := 5) (nt := "LEGENDRE") (qt := "RADAU-RIGHT") (by decide)
    (by decide) ⟨by decide, by decide⟩ 0 1
  exact ⟨c, hc, C100_flex ext c hc S _ _ (fun i => by simp) 3 (by norm_num) (by norm_num)⟩

/-- C100: `MIN-SR-FLEX` raises for the same `k` and the same error; after `M` sweeps it is `MIN-SR-S`. -/
theorem C100_flex_after (S : PyResult (Matrix (Fin M) (Fin M) ℝ)) (x : Fin M → ℝ) :
    (∀ k : ℤ, 1 ≤ k → M < k → R.computeMINSRFLEX S x (some k) = S) ∧
    ∀ (ext : ExternalNum) (nt qt : String) (y : Fin M → ℝ) (k : Option ℤ) (er : PyErr), checkK k = .error er →
      R.computeMINSRFLEX S x k = .error er ∧ QMat.computeMINSRFLEX ext M nt qt y k = .error er := by
  refine ⟨fun k hk hkM => ?_, fun ext nt qt y k er h => ?_⟩
  · simp only [Rounding.computeMINSRFLEX, checkK_pos hk, bind, Except.bind, if_neg (not_le.mpr hkM)]
  · simp only [Rounding.computeMINSRFLEX, QMat.computeMINSRFLEX, h, bind, Except.bind, and_self]

/-- Instance: no sweep has number 0. -/
example (S : PyResult (Matrix (Fin 3) (Fin 3) ℝ)) (ext : ExternalNum) (y : Fin 3 → ℝ) :
    double.computeMINSRFLEX S y (some 4) = S ∧ double.computeMINSRFLEX S y (some 0) = .error .valueError ∧
    QMat.computeMINSRFLEX ext 3 "LEGENDRE" "GAUSS" y (some 0) = .error .valueError :=
  ⟨(C100_flex_after S y).1 4 (by norm_num) (by norm_num), (C100_flex_after S y).2 ext "LEGENDRE" "GAUSS" y (some 0) _ rfl⟩

/-- C102: SDC with up to `M` sweeps of `MIN-SR-FLEX`, everything computed in double precision, against the exact solution. -/
theorem C102_flex_double {F : FejerOps} (E : NodeOps) (S : SolveOps) (hv : F.v ≤ 1 / 10 ^ 15) {m : ℕ} (hM : 0 < M) (hM' : M ≤ 100)
    (hm : m = M - (M + 1) % 2) (hη : 4 * F.κ / m + 4 * (1 + F.κ) * F.ρ / √m ≤ 1 / 10 ^ 15) {nt qt : String} {B : ℝ} (hB : LebesgueType nt qt M B)
    (hqt : qt ∈ QUAD_TYPES) (hn : ValidSize qt M) (hθ : E.θ ≤ 1 / 10 ^ 14) (hσ : E.σ ≤ 1 / 10 ^ 14) (hS : S.σ ≤ 1 / 1000)
    (srs : PyResult (Matrix (Fin M) (Fin M) ℝ))
    (lam u0 : ℂ) (tEnd : ℝ) (n K : ℕ) (hK : K ≤ M) (hn0 : 0 < n) (hz : ‖lam * (tEnd / n : ℝ)‖ * (B + 1) ≤ 1 / 4) (e δ τ a : ℝ)
    (he : e = nodesErr double.u E.θ E.σ nt qt M) (hδ : δ = (M:ℝ) ^ 3 * B ^ 2 * (12 * e + 1 / 10 ^ 13))
    (hyδ : ‖lam * (tEnd / n : ℝ)‖ * δ ≤ 1 / 1000) (hτ : τ = 16 * S.σ + 32 * (M + 3) * double.u + 16 * (‖lam * (tEnd / n : ℝ)‖ * δ))
    (ha : a = Real.exp (lam.re * (tEnd / n))) :
    ∃ c raw p L, Collocation.new M nt qt 0 1 = .ok c ∧ c.order = some p ∧ L = collocationError ‖lam * (tEnd / n : ℝ)‖ M p ∧
    double.getEigenvalues E ⟨nt, qt⟩ M = .ok raw ∧
    (∃ nodes Q' w', ∃ f' : Fin K → Matrix (Fin M) (Fin M) ℝ, double.CollocationArrays F qt hM raw 0 1 nodes Q' w' ∧
      ∀ k : Fin K, double.computeMINSRFLEX srs nodes (some (k + 1)) = .ok (f' k)) ∧
    ∀ nodes Q' w' (f' : Fin K → Matrix (Fin M) (Fin M) ℝ), double.CollocationArrays F qt hM raw 0 1 nodes Q' w' →
      (∀ k : Fin K, double.computeMINSRFLEX srs nodes (some (k + 1)) = .ok (f' k)) →
      ∀ r, double.SolveSDC S lam u0 tEnd n K Q' (.stack K M M f') (some ⟨M, w'⟩) r →
      ∃ l, r = .ok l ∧ l.length = n + 1 ∧ ∀ i (hi : i < l.length),
        ‖l[i] - u0 * Complex.exp (lam * (i * (tEnd / n) : ℝ))‖ ≤ ((a + (L + ((1 / 3) ^ (K + 2) + τ))) ^ i - a ^ i) * ‖u0‖ := by
  obtain ⟨c, raw, p, L, hc, hp, hL, hraw, ⟨nodes0, Q0, w0, f0, hA0, hf0⟩, hall⟩ := C102_sdc_double (F := F) E S hv hM hM' hm hη hB hqt hn hθ hσ hS
    (fun k => .DNODES (k + 1)) (fun k => by simp) lam u0 tEnd n K hn0 hz e δ τ a he hδ hyδ hτ ha
  refine ⟨c, raw, p, L, hc, hp, hL, hraw, ⟨nodes0, Q0, w0, fun k => f0 k, hA0, fun k => ?_⟩, fun nodes Q' w' f' hA hf' r hr => ?_⟩
  · rw [rounded_flex srs nodes0 0 k (k.isLt.trans_le hK) (some (k + 1))]
    exact hf0 k
  · have hex : ∀ k : ℕ, ∃ D, double.computeQDelta nodes 0 (some (k + 1)) (.DNODES (k + 1)) = .ok D := fun k => ⟨_, rfl⟩
    choose f hf using hex
    have hff : (fun k : Fin K => f k) = f' := by
      funext k
      have h1 := hf' k
      rw [rounded_flex srs nodes 0 k (k.isLt.trans_le hK) (some (k + 1)), hf k] at h1
      exact Except.ok.inj h1
    exact hall nodes Q' w' f hA hf r (by rw [hff]; exact hr)

/-- Instance: five Gauss nodes, the five sweeps of `MIN-SR-FLEX`, and ten steps of `20 u' = -u`, all in double precision. -/
example (srs : PyResult (Matrix (Fin 5) (Fin 5) ℝ)) : ∃ raw, double.getEigenvalues roundedNodeOps ⟨"LEGENDRE", "GAUSS"⟩ 5 = .ok raw ∧
    ∃ nodes Q w, ∃ f : Fin 5 → Matrix (Fin 5) (Fin 5) ℝ, ∃ r, double.CollocationArrays double.fejerOps "GAUSS" (by norm_num) raw 0 1 nodes Q w ∧
      (∀ k : Fin 5, double.computeMINSRFLEX srs nodes (some (k + 1)) = .ok (f k)) ∧
      double.SolveSDC ops (-1 / 20) 1 1 10 (5 : ℕ) Q (.stack 5 5 5 f) (some ⟨5, w⟩) r ∧
      ∃ l, r = .ok l ∧ l.length = 11 ∧
        ∀ i (hi : i < l.length), ‖l[i] - Complex.exp (-1 / 20 * (i * (1 / 10) : ℝ))‖ ≤ 1 / 100 := by
  obtain ⟨he, he2⟩ := nodesErr_double roundedNodeOps (M := 5) (by norm_num) "LEGENDRE" "GAUSS" le_rfl (by show (0:ℝ) ≤ _; norm_num)
  have he3 := he2 (by decide)
  have hz : ‖(-1 / 20 : ℂ) * ((1 : ℝ) / (10 : ℕ) : ℝ)‖ = 1 / 200 := by
    rw [norm_mul, norm_div, norm_neg, norm_one, Complex.norm_real]
    norm_num
  have hes := nodesErr_nonneg (u := double.u) (θ := roundedNodeOps.θ) (σ := roundedNodeOps.σ) double.u_nonneg roundedNodeOps.θ_nonneg
    roundedNodeOps.σ_nonneg "LEGENDRE" "GAUSS" 5
  generalize heq : nodesErr double.u roundedNodeOps.θ roundedNodeOps.σ "LEGENDRE" "GAUSS" 5 = e at he3 hes
  obtain ⟨c, raw, p, L, hc, hp, hL, hraw, ⟨nodes, Q, w, f, hA, hf⟩, hall⟩ := C102_flex_double (F := double.fejerOps) roundedNodeOps ops
    (by show double.u ≤ _; rw [double_u]; norm_num) (M := 5) (by norm_num) (by norm_num) (m := 5) rfl
    (by show 4 * double.u / (5:ℕ) + 4 * (1 + double.u) * 0 / √(5:ℕ) ≤ _; rw [double_u]; norm_num) (nt := "LEGENDRE") (qt := "GAUSS") (Or.inl ⟨rfl, rfl⟩)
    (by decide) ⟨by norm_num, fun h => by simp at h⟩ le_rfl (by show (0:ℝ) ≤ _; norm_num) (by show (1 / 10 ^ 15 : ℝ) ≤ _; norm_num) srs
    (-1 / 20) 1 1 10 5 (by norm_num) (by norm_num) (by rw [hz]; norm_num) e _ _ _ heq.symm rfl (by rw [hz]; norm_num at he3 ⊢; linarith) rfl rfl
  obtain ⟨r, hr⟩ := C96_exists (R := double) (S := ops) (-1 / 20) 1 1 10 5 Q (.stack 5 5 5 f) (some ⟨5, w⟩)
  obtain ⟨l, hl, hlen, hb⟩ := hall nodes Q w f hA hf r hr
  refine ⟨raw, hraw, nodes, Q, w, f, r, hA, hf, hr, l, hl, hlen, fun i hi => ?_⟩
  have hp10 : p = 10 := by
    rcases legendre_order c hc with h | h | h
    · have := h.2
      rw [hp] at this
      simpa using this
    · simp at h
    · simp at h
  subst hp10
  have h1 := hb i hi
  rw [one_mul, norm_one, mul_one] at h1
  have hτ : ∀ t : ℝ, 0 ≤ t → t ≤ 1 / 2000 → ∀ s : ℝ, 0 ≤ s → s ≤ 1 → (s + t) ^ i - s ^ i ≤ 1 / 100 := fun t ht0 ht s hs0 hs1 => by
    refine (pow_sub_pow_le_one hs0 hs1 ht0 i).trans ?_
    have h3 : (1 + t) ^ i ≤ (1 + t) ^ 10 := pow_le_pow_right₀ (by linarith) (by omega)
    have h4 : (1 + t) ^ 10 ≤ (1 + 1 / 2000) ^ 10 := pow_le_pow_left₀ (by linarith) (by linarith) 10
    have h5 : ((1:ℝ) + 1 / 2000) ^ 10 ≤ 1 + 1 / 100 := by norm_num
    linarith
  have h2 : ‖l[i] - Complex.exp (-1 / 20 * (i * (1 / (10:ℕ)) : ℝ))‖ ≤ 1 / 100 := by
    refine h1.trans (hτ _ ?_ ?_ _ (Real.exp_pos _).le ?_)
    · rw [hL, hz, double_u]
      have := ops.σ_nonneg
      have := collocationError_nonneg (y := 1 / 200) (by norm_num) 5 10
      positivity
    · rw [hL, hz, double_u, collocationError]
      have h0 : ops.σ = 1 / 10 ^ 15 := rfl
      rw [h0]
      norm_num [Nat.factorial] at he3 ⊢
      linarith
    · rw [Real.exp_le_one_iff]
      norm_num
  simpa using h2

end QMat
