import Verif.Lemmas.PadeError
import Verif.Props.Pade
import Verif.Props.ExactError
import Verif.Props.StageBound
import Verif.Props.ParallelSweeps
import Verif.Props.ErrorNorm
import Mathlib.Analysis.SpecificLimits.Normed

/-!
# C116: the error of Legendre collocation with steps of any length
-/

namespace QMat

open Polynomial Spec Matrix NodesGenerator intervalIntegral Rounding

variable {M : ℕ}

/-- The bound of the error of one step: the constant of the leading term of the error of a Padé approximation, and a power of the step. -/
noncomputable def padeBound (a b : ℕ) (y : ℝ) : ℝ := (a.factorial * b.factorial : ℝ) / ((a + b).factorial * (a + b + 1).factorial) * y ^ (a + b + 1)

theorem padeBound_nonneg (a b : ℕ) {y : ℝ} (hy : 0 ≤ y) : 0 ≤ padeBound a b y := by unfold padeBound; positivity

theorem padeBound_le (a b : ℕ) {y : ℝ} (hy : 0 ≤ y) : padeBound a b y ≤ y ^ (a + b + 1) / (a + b + 1).factorial := by
  have h : (a.factorial * b.factorial : ℝ) ≤ (a + b).factorial := by exact_mod_cast Nat.le_of_dvd (by positivity) (Nat.factorial_mul_factorial_dvd_factorial_add a b)
  have h0 : (0:ℝ) < (a + b).factorial := by positivity
  have h1 : (0:ℝ) < (a + b + 1).factorial := by positivity
  unfold padeBound
  rw [div_mul_eq_mul_div, div_le_div_iff₀ (by positivity) h1]
  have h2 : 0 ≤ y ^ (a + b + 1) * (a + b + 1).factorial := by positivity
  nlinarith [mul_le_mul_of_nonneg_right h h2]

/-- The degrees and the order of a Legendre collocation. -/
theorem padeDegrees_order {qt : String} (c : Collocation M) (hc : Collocation.new M "LEGENDRE" qt 0 1 = .ok c) {a b : ℕ}
    (hab : padeDegrees qt M = (a, b)) : c.order = some (a + b) ∧ b ≤ a + 1 := by
  obtain ⟨x', hM, h⟩ := collocation_spec hc
  have hab' : (if qt = "GAUSS" then (M, M) else if qt = "RADAU-RIGHT" then (M - 1, M) else if qt = "RADAU-LEFT" then (M, M - 1)
    else (M - 1, M - 1)) = (a, b) := hab
  rcases legendre_order c hc with ⟨rfl, ho'⟩ | ⟨rfl | rfl, ho'⟩ | ⟨rfl, hM2, ho'⟩ <;> rw [ho'] <;>
    simp only [String.reduceEq, if_true, if_false, Prod.mk.injEq] at hab' <;> obtain ⟨rfl, rfl⟩ := hab' <;>
    refine ⟨congrArg some ?_, ?_⟩ <;> omega

/-- C116: the error of one step of a `LEGENDRE` collocation, for every equation that does not grow and every length of the step. -/
theorem C116_step {qt : String} (c : Collocation M) (hc : Collocation.new M "LEGENDRE" qt 0 1 = .ok c) (hun : Unmoved "LEGENDRE" qt c)
    (a b : ℕ) (hab : padeDegrees qt M = (a, b)) (z : ℂ) (hz : z.re ≤ 0) :
    c.order = some (a + b) ∧ (1 - z • c.Q.map Complex.ofReal).det ≠ 0 ∧
      ‖stabilityFunction c.Q c.weights z - Complex.exp z‖ ≤ padeBound a b ‖z‖ := by
  obtain ⟨ho, hba⟩ := padeDegrees_order c hc hab
  have hne : ∀ w : ℂ, w.re ≤ 0 → padeNum b a (-w) ≠ 0 := fun w hw => (C105_step c hc hun a b hab w).1.1 (legendre_det c hc hun hw)
  refine ⟨ho, legendre_det c hc hun hz, ?_⟩
  rw [(C105_step c hc hun a b hab z).2 (hne z hz)]
  exact pade_error hba hne hz

/-- Powers of two numbers of modulus at most one. -/
theorem norm_pow_sub_pow_le {s w : ℂ} (hs : ‖s‖ ≤ 1) (hw : ‖w‖ ≤ 1) {L : ℝ} (h : ‖s - w‖ ≤ L) (i : ℕ) : ‖s ^ i - w ^ i‖ ≤ i * L := by
  induction i with
  | zero => simp
  | succ i ih =>
    have e : s ^ (i + 1) - w ^ (i + 1) = (s ^ i - w ^ i) * s + w ^ i * (s - w) := by ring
    rw [e]
    refine (norm_add_le _ _).trans ?_
    rw [norm_mul, norm_mul, norm_pow]
    have h1 : ‖w‖ ^ i ≤ 1 := pow_le_one₀ (norm_nonneg _) hw
    have h2 := mul_le_of_le_one_right (norm_nonneg (s ^ i - w ^ i)) hs
    have h3 := mul_le_of_le_one_left (norm_nonneg (s - w)) h1
    push_cast
    linarith

/-- C116: many steps. The errors of the steps add up and nothing else; no condition on the length of the steps. -/
theorem C116_solve {qt : String} (hqt : qt ≠ "RADAU-LEFT") (c : Collocation M) (hc : Collocation.new M "LEGENDRE" qt 0 1 = .ok c)
    (hun : Unmoved "LEGENDRE" qt c) (a b : ℕ) (hab : padeDegrees qt M = (a, b)) (lam u0 : ℂ) (tEnd : ℝ) (hlam : lam.re * tEnd ≤ 0) (n : ℕ)
    (hn : 0 < n) (y L : ℝ) (hy : y = ‖lam‖ * |tEnd|) (hL : L = padeBound a b (y / n)) :
    ∃ l e, c.toQGenerator.solveDahlquist lam u0 tEnd n = .ok l ∧ l.length = n + 1 ∧
      (∀ i (hi : i < l.length), ‖l[i] - u0 * Complex.exp (lam * (i * (tEnd / n) : ℝ))‖ ≤ i * L * ‖u0‖) ∧
      c.toQGenerator.errorDahlquist lam u0 tEnd n = .ok e ∧ e ≤ n * L * ‖u0‖ := by
  have hn' : (0:ℝ) < n := by exact_mod_cast hn
  have hre : (lam * (tEnd / n : ℝ)).re ≤ 0 := by
    rw [Complex.mul_re, Complex.ofReal_re, Complex.ofReal_im, mul_zero, sub_zero, ← mul_div_assoc]
    exact div_nonpos_of_nonpos_of_nonneg hlam hn'.le
  have hzn : ‖lam * (tEnd / n : ℝ)‖ = y / n := by
    rw [norm_mul, Complex.norm_real, Real.norm_eq_abs, abs_div, abs_of_pos hn', hy]; ring
  obtain ⟨-, hdet, hstep⟩ := C116_step c hc hun a b hab _ hre
  rw [hzn, ← hL] at hstep
  have hL0 : 0 ≤ L := (norm_nonneg _).trans hstep
  have hex := C30_solveDahlquist c.toQGenerator lam u0 tEnd n hn hdet
  have hs := legendre_astable hqt c hc hun hre
  have hw : ‖Complex.exp (lam * (tEnd / n : ℝ))‖ ≤ 1 := by rw [Complex.norm_exp]; exact Real.exp_le_one_iff.2 hre
  have hval : ∀ i : ℕ, ‖stabilityFunction c.toQGenerator.Q c.toQGenerator.weights (lam * (tEnd / n : ℝ)) ^ i * u0 - u0 * Complex.exp (lam * (i * (tEnd / n) : ℝ))‖ ≤
      i * L * ‖u0‖ := fun i => by
    rw [← exp_step_pow, mul_comm u0, ← sub_mul, norm_mul]
    exact mul_le_mul_of_nonneg_right (norm_pow_sub_pow_le hs hw hstep i) (norm_nonneg _)
  obtain ⟨e, he, -, hle⟩ := errorDahlquist_of_solve c.toQGenerator lam u0 tEnd n false _ hex
  refine ⟨_, e, hex, by simp, fun i hi => by simpa using hval i, he, hle _ (by positivity) fun k hk => (hval k).trans ?_⟩
  have : (k:ℝ) ≤ n := by exact_mod_cast hk
  gcongr

/-- C116: halving the steps divides the bound by the power of two that `order` states, from the first step on. -/
theorem C116_refine {qt : String} (hqt : qt ≠ "RADAU-LEFT") (c : Collocation M) (hc : Collocation.new M "LEGENDRE" qt 0 1 = .ok c)
    (hun : Unmoved "LEGENDRE" qt c) (lam u0 : ℂ) (tEnd : ℝ) (hlam : lam.re * tEnd ≤ 0) :
    ∃ p K, c.order = some p ∧ 0 ≤ K ∧ K ≤ (‖lam‖ * |tEnd|) ^ (p + 1) / (p + 1).factorial ∧ ∀ n : ℕ, 0 < n → ∃ e,
      c.toQGenerator.errorDahlquist lam u0 tEnd n = .ok e ∧ e ≤ K / n ^ p * ‖u0‖ := by
  set y := ‖lam‖ * |tEnd| with hy
  have hy0 : 0 ≤ y := by positivity
  obtain ⟨a, b, hab⟩ : ∃ a b, padeDegrees qt M = (a, b) := ⟨_, _, rfl⟩
  obtain ⟨ho, -⟩ := padeDegrees_order c hc hab
  refine ⟨_, padeBound a b y, ho, padeBound_nonneg _ _ hy0, padeBound_le _ _ hy0, fun n hn => ?_⟩
  obtain ⟨l, e, -, -, -, he, hle⟩ := C116_solve hqt c hc hun a b hab lam u0 tEnd hlam n hn y _ hy rfl
  refine ⟨e, he, hle.trans (mul_le_mul_of_nonneg_right (le_of_eq ?_) (norm_nonneg _))⟩
  have hn' : (n:ℝ) ≠ 0 := by positivity
  unfold padeBound
  rw [div_pow, pow_succ (n:ℝ)]
  field_simp

/-- C116: more nodes instead of more steps. With enough `LOBATTO` nodes the error is as small as required, with the same steps. -/
theorem C116_more_nodes (lam u0 : ℂ) (tEnd : ℝ) (hlam : lam.re * tEnd ≤ 0) (n : ℕ) (hn : 0 < n) (ε : ℝ) (hε : 0 < ε) :
    ∃ M₀ : ℕ, ∀ M, M₀ ≤ M → ∀ c : Collocation M, Collocation.new M "LEGENDRE" "LOBATTO" 0 1 = .ok c →
      ∃ e, c.toQGenerator.errorDahlquist lam u0 tEnd n = .ok e ∧ e ≤ ε := by
  set y := ‖lam‖ * |tEnd| with hy
  have hy0 : 0 ≤ y / n := by positivity
  have ht := FloorSemiring.tendsto_pow_div_factorial_atTop (y / n)
  have h0 : 0 < ε / (n * ‖u0‖ + 1) := by positivity
  obtain ⟨N, hN⟩ := (Metric.tendsto_atTop.1 ht) _ h0
  refine ⟨N + 1, fun M hM c hc => ?_⟩
  obtain ⟨l, e, -, -, -, he, hle⟩ := C116_solve (by decide) c hc (unmoved_lobatto c hc) (M - 1) (M - 1) rfl lam u0 tEnd hlam n hn y _ hy rfl
  refine ⟨e, he, hle.trans ?_⟩
  have h1 := hN (M - 1 + (M - 1) + 1) (by omega)
  rw [dist_zero_right, Real.norm_of_nonneg (by positivity)] at h1
  have h2 := (padeBound_le (M - 1) (M - 1) hy0).trans h1.le
  have h3 : (n * ‖u0‖) * (ε / (n * ‖u0‖ + 1)) ≤ ε := by
    rw [mul_div_assoc', div_le_iff₀ (by positivity)]
    nlinarith
  have h4 := mul_le_mul_of_nonneg_left h2 (by positivity : 0 ≤ n * ‖u0‖)
  calc n * padeBound (M - 1) (M - 1) (y / n) * ‖u0‖ = n * ‖u0‖ * padeBound (M - 1) (M - 1) (y / n) := by ring
    _ ≤ ε := h4.trans h3

/-- C116: the sign of the error of one step for a decaying equation: it alternates with the degree of the numerator. -/
theorem C116_sign {qt : String} (c : Collocation M) (hc : Collocation.new M "LEGENDRE" qt 0 1 = .ok c) (hun : Unmoved "LEGENDRE" qt c)
    (a b : ℕ) (hab : padeDegrees qt M = (a, b)) (z : ℝ) (hz : z < 0) :
    ∃ r : ℝ, stabilityFunction c.Q c.weights z = r ∧ 0 < (-1) ^ a * (r - Real.exp z) := by
  have hre : (z:ℂ).re ≤ 0 := by rw [Complex.ofReal_re]; exact hz.le
  have hD := (C105_step c hc hun a b hab z).1.1 (legendre_det c hc hun hre)
  have hval := (C105_step c hc hun a b hab z).2 hD
  set N : ℝ := ∑ j ∈ Finset.range (a + 1), ((a + b - j).factorial * a.choose j : ℕ) * z ^ j with hN
  set D : ℝ := ∑ j ∈ Finset.range (b + 1), ((b + a - j).factorial * b.choose j : ℕ) * (-z) ^ j with hDd
  set I : ℝ := ∫ t in (0:ℝ)..1, Real.exp (z * (1 - t)) * (t ^ a * (1 - t) ^ b) with hI
  have eN : padeNum a b z = (N : ℂ) := by rw [hN]; unfold padeNum; push_cast; rfl
  have eD : padeNum b a (-(z:ℂ)) = (D : ℂ) := by rw [hDd]; unfold padeNum; push_cast; rfl
  have eI : padeInt z a b = (I : ℂ) := by
    rw [hI, ← intervalIntegral.integral_ofReal]
    unfold padeInt
    congr 1
    funext t
    push_cast
    rfl
  have hDpos : 0 < D := by
    have h0 : 0 ≤ D := Finset.sum_nonneg fun j _ => mul_nonneg (by positivity) (pow_nonneg (by linarith) _)
    refine lt_of_le_of_ne h0 fun h => hD ?_
    rw [eD, ← h, Complex.ofReal_zero]
  have hIpos : 0 < I := by
    refine intervalIntegral.intervalIntegral_pos_of_pos_on (Continuous.intervalIntegrable (by fun_prop) 0 1) (fun t ht => ?_) zero_lt_one
    have h1 : 0 < t := ht.1
    have h2 : 0 < 1 - t := by linarith [ht.2]
    positivity
  have hr := pade_remainder (z:ℂ) a b
  rw [eN, eD, eI, ← Complex.ofReal_exp] at hr
  have hr' : Real.exp z * D - N = (-1) ^ b * z ^ (a + b + 1) * I := by exact_mod_cast hr
  refine ⟨N / D, by rw [hval, eN, eD]; push_cast; rfl, ?_⟩
  have e : (-1 : ℝ) ^ a * (N / D - Real.exp z) = (-z) ^ (a + b + 1) * I / D := by
    have : N / D - Real.exp z = -((-1) ^ b * z ^ (a + b + 1) * I) / D := by rw [← hr']; field_simp; ring
    rw [this, neg_pow z, pow_succ, pow_add]
    ring
  rw [e]
  exact div_pos (mul_pos (pow_pos (by linarith) _) hIpos) hDpos

/-- C116: two `LEGENDRE` collocations whose numerators have degrees of different parity, for example one more node of the same type, or `GAUSS`
and `RADAU-RIGHT` nodes of the same number: the exact value after one step of a decaying equation lies strictly between the two values. -/
theorem C116_enclosure {M M' : ℕ} {qt qt' : String} (c : Collocation M) (hc : Collocation.new M "LEGENDRE" qt 0 1 = .ok c)
    (hun : Unmoved "LEGENDRE" qt c) (c' : Collocation M') (hc' : Collocation.new M' "LEGENDRE" qt' 0 1 = .ok c') (hun' : Unmoved "LEGENDRE" qt' c')
    (a b a' b' : ℕ) (hab : padeDegrees qt M = (a, b)) (hab' : padeDegrees qt' M' = (a', b')) (ha : Even a) (ha' : ¬ Even a')
    (lam tEnd : ℝ) (h : lam * tEnd < 0) :
    ∃ r r' : ℝ, c.toQGenerator.solveDahlquist lam 1 tEnd 1 = .ok [1, (r : ℂ)] ∧ c'.toQGenerator.solveDahlquist lam 1 tEnd 1 = .ok [1, (r' : ℂ)] ∧
      r' < Real.exp (lam * tEnd) ∧ Real.exp (lam * tEnd) < r := by
  have hs : ∀ {M : ℕ} {qt : String} (c : Collocation M), Collocation.new M "LEGENDRE" qt 0 1 = .ok c → Unmoved "LEGENDRE" qt c →
      c.toQGenerator.solveDahlquist lam 1 tEnd 1 = .ok [1, stabilityFunction c.Q c.weights ((lam * tEnd : ℝ) : ℂ)] := by
    intro M qt c hc hun
    have ez : (lam : ℂ) * (tEnd / (1:ℕ) : ℝ) = ((lam * tEnd : ℝ) : ℂ) := by push_cast; ring
    have hdet := legendre_det c hc hun (z := ((lam * tEnd : ℝ) : ℂ)) (by rw [Complex.ofReal_re]; exact h.le)
    have := C30_solveDahlquist c.toQGenerator lam 1 tEnd 1 one_pos (by rw [ez]; exact hdet)
    rw [ez] at this
    change _ = Except.ok ((List.range (1 + 1)).map fun k => stabilityFunction c.Q c.weights ((lam * tEnd : ℝ) : ℂ) ^ k * 1) at this
    simpa [List.range_succ] using this
  obtain ⟨r, hr, hrs⟩ := C116_sign c hc hun a b hab (lam * tEnd) h
  obtain ⟨r', hr', hrs'⟩ := C116_sign c' hc' hun' a' b' hab' (lam * tEnd) h
  refine ⟨r, r', hr ▸ hs c hc hun, hr' ▸ hs c' hc' hun', ?_, ?_⟩
  · rw [(Nat.not_even_iff_odd.1 ha').neg_one_pow] at hrs'; linarith
  · rw [ha.neg_one_pow] at hrs; linarith

/-- C116: `BEPAR` sweeps, which can be computed in parallel: with `K` sweeps the errors of the sweeps, which decrease geometrically, are added. -/
theorem C116_sdc {qt : String} (hqt : qt ≠ "RADAU-LEFT") (hM : M ≤ 158) (c : Collocation M) (hc : Collocation.new M "LEGENDRE" qt 0 1 = .ok c)
    (a b : ℕ) (hab : padeDegrees qt M = (a, b)) (lam u0 : ℂ) (tEnd : ℝ) (hlam : lam.re * tEnd ≤ 0) (n : ℕ) (hn : 0 < n) (K : ℕ)
    (w : Option (Σ k, Fin k → ℝ)) (y L g τ : ℝ) (hy : y = ‖lam‖ * |tEnd| / n) (hL : L = padeBound a b y) (hg : g = y / √(1 + y ^ 2))
    (hw : (w = some ⟨M, c.weights⟩ ∧ τ = y * (g ^ (K + 1) / (1 - g))) ∨
      (w = none ∧ (qt = "RADAU-RIGHT" ∨ qt = "LOBATTO") ∧ τ = M * (g ^ (K + 1) / (1 - g)))) :
    g < 1 ∧ ∃ e, errorDahlquistSDC lam u0 tEnd n K c.Q (.mat M M (diagonal c.nodes)) w = .ok e ∧ e ≤ ((1 + τ) ^ n - 1 + n * L) * ‖u0‖ := by
  have hn' : (0:ℝ) < n := by exact_mod_cast hn
  have hun := unmoved_small hM c hc
  have hre : (lam * (tEnd / n : ℝ)).re ≤ 0 := by
    rw [Complex.mul_re, Complex.ofReal_re, Complex.ofReal_im, mul_zero, sub_zero, ← mul_div_assoc]
    exact div_nonpos_of_nonpos_of_nonneg hlam hn'.le
  have hzn : ‖lam * (tEnd / n : ℝ)‖ = y := by
    rw [norm_mul, Complex.norm_real, Real.norm_eq_abs, abs_div, abs_of_pos hn', hy]; ring
  have hy0 : 0 ≤ y := hzn ▸ norm_nonneg _
  obtain ⟨hg0, hg1, -⟩ := rate_sq (z := lam * (tEnd / n : ℝ)) (g := g) (by rw [hzn]; exact hg)
  have hτ0 : 0 ≤ τ := by
    have h1 : 0 ≤ g ^ (K + 1) / (1 - g) := div_nonneg (pow_nonneg hg0 _) (by linarith)
    rcases hw with ⟨-, rfl⟩ | ⟨-, -, rfl⟩ <;> positivity
  refine ⟨hg1, ?_⟩
  obtain ⟨v, out, hv, hvl, hout, houtl, hd⟩ := C106_values hM c hc lam u0 tEnd hlam n hn K [] (fun k hk => by simp at hk) w _ rfl g τ
    (by rw [hzn]; exact hg) (by rw [hzn]; exact hw)
  obtain ⟨l, e', hl, hll, hlv, -, -⟩ := C116_solve hqt c hc hun a b hab lam u0 tEnd hlam n hn (‖lam‖ * |tEnd|) L rfl (by rw [hL, hy])
  rw [hl] at hv
  cases hv
  obtain ⟨e, he, -, k, x, hk, hex⟩ := (C56_errorDahlquistSDC lam u0 tEnd n K c.Q (.mat M M (diagonal c.nodes)) w none).1 out.uNum
    (Or.inr ⟨rfl, out, hout, rfl⟩) houtl
  refine ⟨e, he, ?_⟩
  obtain ⟨hkl, hkx⟩ := List.getElem?_eq_some_iff.1 hk
  have hkn : k ≤ n := by omega
  have h1 := hd k hkn
  have h2 := hlv k (by omega)
  have hs1 := legendre_astable hqt c hc hun hre
  have h3 := pow_sub_pow_mono (norm_nonneg _) hs1 hτ0 k
  have hkv : k < v.length := by omega
  have g1 : out.uNum.getD k 0 = x := by simp [List.getD, hk]
  have g2 : v.getD k 0 = v[k] := by simp [List.getD, hkv]
  rw [g1, g2] at h1
  have hkn' : (k:ℝ) ≤ n := by exact_mod_cast hkn
  have hL0 : 0 ≤ L := by rw [hL]; exact padeBound_nonneg _ _ hy0
  have h4 : (1 + τ) ^ k ≤ (1 + τ) ^ n := pow_le_pow_right₀ (by linarith) hkn
  rw [one_pow] at h3
  rw [hex]
  have e1 : x - u0 * Complex.exp (lam * (k * (tEnd / n) : ℝ)) = (x - v[k]) + (v[k] - u0 * Complex.exp (lam * (k * (tEnd / n) : ℝ))) := by ring
  rw [e1]
  refine (norm_add_le _ _).trans ((add_le_add h1 h2).trans ?_)
  rw [← add_mul]
  refine mul_le_mul_of_nonneg_right ?_ (norm_nonneg _)
  have h5 := mul_le_mul_of_nonneg_right hkn' hL0
  linarith

/-- C116: the whole computation in binary64 arithmetic, from the nodes to the values, for steps of any length. -/
theorem C116_double {F : FejerOps} (E : NodeOps) (S : SolveOps) (hv : F.v ≤ 1 / 10 ^ 15) {m : ℕ} (hM : 0 < M) (hM' : M ≤ 100)
    (hm : m = M - (M + 1) % 2) (hη : 4 * F.κ / m + 4 * (1 + F.κ) * F.ρ / √m ≤ 1 / 10 ^ 15) {qt : String} (hqt' : qt ≠ "RADAU-LEFT")
    (hqt : qt ∈ QUAD_TYPES) (hn : ValidSize qt M) (hθ : E.θ ≤ 1 / 10 ^ 14) (hσ : E.σ ≤ 1 / 10 ^ 14)
    (a b : ℕ) (hab : padeDegrees qt M = (a, b))
    (lam u0 : ℂ) (tEnd : ℝ) (hlam : lam.re * tEnd ≤ 0) (n : ℕ) (hn0 : 0 < n) (y e δ ε Y τ L : ℝ) (hy : y = ‖lam‖ * |tEnd| / n)
    (he : e = nodesErr double.u E.θ E.σ "LEGENDRE" qt M) (hδ : δ = (M:ℝ) ^ 5 * (12 * e + 1 / 10 ^ 13))
    (hε : ε = 2 * S.σ + 4 * (M + 3) * double.u + δ) (hY : Y = (1 + stageFactor qt M * y) * (1 + y * (M + 1))) (hYε : 2 * ε * Y ≤ 1)
    (hτ : τ = 4 * ε * Y ^ 2) (hL : L = padeBound a b y) :
    ∃ raw, double.getEigenvalues E ⟨"LEGENDRE", qt⟩ M = .ok raw ∧ (∃ nodes Q' w', double.CollocationArrays F qt hM raw 0 1 nodes Q' w') ∧
    ∀ nodes Q' w', double.CollocationArrays F qt hM raw 0 1 nodes Q' w' → ∀ r, double.SolveDahlquist S lam u0 tEnd n Q' ⟨M, w'⟩ r →
      ∃ l, r = .ok l ∧ l.length = n + 1 ∧ ∀ i (hi : i < l.length),
        ‖l[i] - u0 * Complex.exp (lam * (i * (tEnd / n) : ℝ))‖ ≤ ((1 + τ) ^ i - 1 + i * L) * ‖u0‖ := by
  have hn' : (0:ℝ) < n := by exact_mod_cast hn0
  have hzn : ‖lam * (tEnd / n : ℝ)‖ = y := by
    rw [norm_mul, Complex.norm_real, Real.norm_eq_abs, abs_div, abs_of_pos hn', hy]; ring
  obtain ⟨c, raw, hc, hraw, hA, hall⟩ := C104_double (F := F) E S hv hM hM' hm hη hqt hn hθ hσ lam u0 tEnd hlam n hn0 y e δ ε Y τ hzn.symm he hδ hε hY
    hYε hτ
  refine ⟨raw, hraw, hA, fun nodes Q' w' hQ r hr => ?_⟩
  obtain ⟨l, l', s, hl, hl', -, hlen, hlen', -, hb⟩ := hall nodes Q' w' hQ r hr
  obtain ⟨l₂, e', hl₂, hll, hlv, -, -⟩ := C116_solve hqt' c hc (unmoved_small (by omega) c hc) a b hab lam u0 tEnd hlam n hn0 (‖lam‖ * |tEnd|) L rfl
    (by rw [hL, hy])
  rw [hl'] at hl₂
  cases hl₂
  refine ⟨l, hl, hlen, fun i hi => ?_⟩
  have h1 := hb hqt' i hi (by omega)
  have h2 := hlv i (by omega)
  have e1 : l[i] - u0 * Complex.exp (lam * (i * (tEnd / n) : ℝ)) = (l[i] - l'[i]) + (l'[i] - u0 * Complex.exp (lam * (i * (tEnd / n) : ℝ))) := by ring
  rw [e1]
  refine (norm_add_le _ _).trans ((add_le_add h1 h2).trans (le_of_eq ?_))
  ring

/-- Instance: one step of length `2` for `u' = -u` with five Gauss nodes; six digits. -/
example : ∃ c : Collocation 5, Collocation.new 5 "LEGENDRE" "GAUSS" 0 1 = .ok c ∧ ∃ e,
    c.toQGenerator.errorDahlquist (-1) 1 2 (1 : ℕ) = .ok e ∧ e ≤ 1 / 10 ^ 6 := by
  obtain ⟨c, hc⟩ := collocation_new_ok (M := 5) (nt := "LEGENDRE") (qt := "GAUSS") (by decide)
    (by decide) ⟨by norm_num, fun h => by simp at h⟩ 0 1
  obtain ⟨l, e, -, -, -, he, hle⟩ := C116_solve (by decide) c hc (unmoved_small (by norm_num) c hc) 5 5 rfl (-1) 1 2 (by norm_num) 1 one_pos 2 _
    (by simp) rfl
  refine ⟨c, hc, e, he, hle.trans ?_⟩
  norm_num [padeBound, Nat.factorial]

/-- Instance: oscillation `u' = 10 i u`, a hundred steps of length `1` with twenty Lobatto nodes. -/
example : ∃ c : Collocation 20, Collocation.new 20 "LEGENDRE" "LOBATTO" 0 1 = .ok c ∧ ∃ e,
    c.toQGenerator.errorDahlquist (10 * Complex.I) 1 100 (100 : ℕ) = .ok e ∧ e ≤ 1 / 10 ^ 10 := by
  obtain ⟨c, hc⟩ := collocation_new_ok (M := 20) (nt := "LEGENDRE") (qt := "LOBATTO") (by decide)
    (by decide) ⟨by norm_num, fun _ => by norm_num⟩ 0 1
  obtain ⟨l, e, -, -, -, he, hle⟩ := C116_solve (by decide) c hc (unmoved_lobatto c hc) 19 19 rfl (10 * Complex.I) 1 100 (by simp) 100 (by norm_num)
    1000 _ (by simp; norm_num) rfl
  refine ⟨c, hc, e, he, hle.trans ?_⟩
  norm_num [padeBound, Nat.factorial]

/-- Instance: four Gauss and four right Radau nodes enclose `exp (-3)`. -/
example : ∃ r r' : ℝ, r' < Real.exp (-3) ∧ Real.exp (-3) < r ∧ ∃ c c' : Collocation 4, Collocation.new 4 "LEGENDRE" "GAUSS" 0 1 = .ok c ∧
    Collocation.new 4 "LEGENDRE" "RADAU-RIGHT" 0 1 = .ok c' ∧ c.toQGenerator.solveDahlquist (-3 : ℝ) 1 (1 : ℝ) 1 = .ok [1, (r : ℂ)] ∧
    c'.toQGenerator.solveDahlquist (-3 : ℝ) 1 (1 : ℝ) 1 = .ok [1, (r' : ℂ)] := by
  obtain ⟨c, hc⟩ := collocation_new_ok (M := 4) (nt := "LEGENDRE") (qt := "GAUSS") (by decide)
    (by decide) ⟨by norm_num, fun h => by simp at h⟩ 0 1
  obtain ⟨c', hc'⟩ := collocation_new_ok (M := 4) (nt := "LEGENDRE") (qt := "RADAU-RIGHT") (by decide)
    (by decide) ⟨by norm_num, fun h => by simp at h⟩ 0 1
  obtain ⟨r, r', h1, h2, h3, h4⟩ := C116_enclosure c hc (unmoved_small (by norm_num) c hc) c' hc' (unmoved_small (by norm_num) c' hc') 4 4 3 4 rfl rfl
    (by decide) (by decide) (-3) 1 (by norm_num)
  rw [mul_one] at h3 h4
  exact ⟨r, r', h3, h4, c, c', hc, hc', h1, h2⟩

/-- Instance: one step of length `1` with forty parallel sweeps on five right Radau nodes. -/
example : ∃ c : Collocation 5, Collocation.new 5 "LEGENDRE" "RADAU-RIGHT" 0 1 = .ok c ∧ ∃ e,
    errorDahlquistSDC (-1) 1 1 (1 : ℕ) (40 : ℕ) c.Q (.mat 5 5 (diagonal c.nodes)) none = .ok e ∧ e ≤ 3 / 10 ^ 5 := by
  obtain ⟨c, hc⟩ := collocation_new_ok (M := 5) (nt := "LEGENDRE") (qt := "RADAU-RIGHT") (by decide)
    (by decide) ⟨by norm_num, fun _ => by norm_num⟩ 0 1
  obtain ⟨-, e, he, hle⟩ := C116_sdc (by decide) (by norm_num) c hc 4 5 rfl (-1) 1 1 (by norm_num) 1 one_pos 40 none 1 _ (1 / √2) _ (by simp) rfl
    (by norm_num) (Or.inr ⟨rfl, Or.inl rfl, rfl⟩)
  refine ⟨c, hc, e, he, hle.trans ?_⟩
  have hs : (1 / √2) ^ 2 = (1 / 2 : ℝ) := by rw [div_pow, Real.sq_sqrt (by norm_num)]; norm_num
  have h0 : 0 ≤ 1 / √2 := by positivity
  have hlt : 1 / √2 ≤ (708 / 1000 : ℝ) := by
    refine le_of_sq_le_sq ?_ (by norm_num)
    rw [hs]; norm_num
  have hp : (1 / √2) ^ (40 + 1) = (1 / 2) ^ 20 * (1 / √2) := by
    rw [pow_succ, show (40:ℕ) = 2 * 20 by norm_num, pow_mul, hs]
  rw [hp]
  generalize 1 / √2 = g at h0 hlt
  have h1 : (1 / 2) ^ 20 * g / (1 - g) ≤ (1 / 2) ^ 20 * (708 / 1000) / (1 - 708 / 1000 : ℝ) :=
    div_le_div₀ (by norm_num) (by gcongr) (by norm_num) (by linarith)
  rw [pow_one, norm_one, mul_one]
  norm_num [padeBound, Nat.factorial] at h1 ⊢
  linarith

/-- Instance: one step of length `2` for `u' = -u` with two right Radau nodes in binary64 arithmetic. -/
example : ∃ raw, double.getEigenvalues roundedNodeOps ⟨"LEGENDRE", "RADAU-RIGHT"⟩ 2 = .ok raw ∧
    ∃ nodes Q w r, double.CollocationArrays double.fejerOps "RADAU-RIGHT" (by norm_num) raw 0 1 nodes Q w ∧
      double.SolveDahlquist ops (-1) 1 2 (1 : ℕ) Q ⟨2, w⟩ r ∧
      ∃ l, r = .ok l ∧ l.length = 2 ∧ ∀ hi : 1 < l.length, ‖l[1] - Complex.exp (-2)‖ ≤ 1 / 4 := by
  obtain ⟨he, he2⟩ := nodesErr_double roundedNodeOps (M := 2) (by norm_num) "LEGENDRE" "RADAU-RIGHT" le_rfl (by show (0:ℝ) ≤ _; norm_num)
  have he3 := he2 (by decide)
  have hes := nodesErr_nonneg (u := double.u) (θ := roundedNodeOps.θ) (σ := roundedNodeOps.σ) double.u_nonneg roundedNodeOps.θ_nonneg
    roundedNodeOps.σ_nonneg "LEGENDRE" "RADAU-RIGHT" 2
  generalize heq : nodesErr double.u roundedNodeOps.θ roundedNodeOps.σ "LEGENDRE" "RADAU-RIGHT" 2 = e at he3 hes
  obtain ⟨raw, hraw, ⟨nodes, Q, w, hA⟩, hall⟩ := C116_double (F := double.fejerOps) roundedNodeOps ops
    (by show double.u ≤ _; rw [double_u]; norm_num) (M := 2) (by norm_num) (by norm_num) (m := 1) rfl
    (by show 4 * double.u / (1:ℕ) + 4 * (1 + double.u) * 0 / √(1:ℕ) ≤ _; rw [double_u]; norm_num) (qt := "RADAU-RIGHT") (by decide)
    (by decide) ⟨by norm_num, fun h => by simp at h⟩ le_rfl (by show (0:ℝ) ≤ _; norm_num) 1 2 rfl
    (-1) 1 2 (by norm_num) 1 (by norm_num) 2 e _ _ 63 _ _ (by simp) heq.symm rfl rfl (by rw [stageFactor, if_neg (by decide)]; norm_num)
    (by
      have h0 : ops.σ = 1 / 10 ^ 15 := rfl
      rw [h0, double_u]
      norm_num at he3 ⊢
      linarith) rfl rfl
  obtain ⟨r, hr⟩ := C97_exists (R := double) (S := ops) (-1) 1 2 1 Q ⟨2, w⟩
  obtain ⟨l, hl, hlen, hb⟩ := hall nodes Q w hA r hr
  refine ⟨raw, hraw, nodes, Q, w, r, hA, hr, l, hl, hlen, fun hi => ?_⟩
  have h1 := hb 1 hi
  have e1 : (1:ℂ) * Complex.exp (-1 * (((1:ℕ):ℝ) * (2 / ((1:ℕ):ℝ)) : ℝ)) = Complex.exp (-2) := by
    rw [one_mul]; congr 1; push_cast; ring
  rw [e1] at h1
  refine h1.trans ?_
  rw [norm_one, mul_one, pow_one]
  have h0 : ops.σ = 1 / 10 ^ 15 := rfl
  rw [h0, double_u]
  norm_num [padeBound, Nat.factorial] at he3 ⊢
  linarith

end QMat
