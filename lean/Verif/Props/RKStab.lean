import Verif.Lemmas.RKStab
import Verif.Props.Butcher
import Verif.Props.Stiff

/-!
# C74, C75: stability of the Runge-Kutta classes
-/

namespace QMat

open Spec Matrix

attribute [local simp] Quad.toReal_q Quad.toReal_r

theorem RKTable.shapesOk_b (T : RKTable) (hs : T.shapesOk = true) : T.b.length = T.c.length := by
  simp only [RKTable.shapesOk, Bool.and_eq_true, decide_eq_true_eq] at hs
  exact hs.1.1

/-- `det ≠ 0` on the left half plane gives solutions, each value a multiple of the one before. -/
theorem rk_steps (T : RKTable) (hT : T ∈ Tables.rkSchemes) (lam u0 : ℂ) (tEnd : ℝ) (hlam : lam.re * tEnd ≤ 0)
    (n : ℕ) (hn : 0 < n) :
    (lam * (tEnd / n : ℝ)).re ≤ 0 ∧
    ∃ u : List ℂ, T.toRK.toQGenerator.solveDahlquist lam u0 tEnd n = .ok u ∧ u.length = n + 1 ∧ u.head? = some u0 ∧
      ∀ (k : ℕ) (v v' : ℂ), u[k]? = some v → u[k + 1]? = some v' →
        v' = stabilityFunction T.toRK.A T.toRK.b (lam * (tEnd / n : ℝ)) * v := by
  have hn' : (0:ℝ) < n := by exact_mod_cast hn
  have hre : (lam * (tEnd / n : ℝ)).re ≤ 0 := by
    rw [Complex.mul_re, Complex.ofReal_re, Complex.ofReal_im, mul_zero, sub_zero, ← mul_div_assoc]
    exact div_nonpos_of_nonpos_of_nonneg hlam hn'.le
  exact ⟨hre, dahlquist_steps T.toRK.toQGenerator lam u0 tEnd n hn (registered_det T hT hre)⟩

/-- The same with the weights of the embedded method. -/
theorem rk_steps_embedded (T : RKTable) (hT : T ∈ Tables.rkSchemes) (b2 : List (Quad T.d)) (hb2 : T.b2 = some b2)
    (lam u0 : ℂ) (tEnd : ℝ) (hlam : lam.re * tEnd ≤ 0) (n : ℕ) (hn : 0 < n) :
    (lam * (tEnd / n : ℝ)).re ≤ 0 ∧
    ∃ u : List ℂ, T.toRK.toQGenerator.solveDahlquist lam u0 tEnd n true = .ok u ∧ u.length = n + 1 ∧
      u.head? = some u0 ∧ ∀ (k : ℕ) (v v' : ℂ), u[k]? = some v → u[k + 1]? = some v' →
        v' = stabilityFunction T.toRK.A (fun i : Fin T.c.length => (b2.getD i 0).toReal)
          (lam * (tEnd / n : ℝ)) * v := by
  have hn' : (0:ℝ) < n := by exact_mod_cast hn
  have hre : (lam * (tEnd / n : ℝ)).re ≤ 0 := by
    rw [Complex.mul_re, Complex.ofReal_re, Complex.ofReal_im, mul_zero, sub_zero, ← mul_div_assoc]
    exact div_nonpos_of_nonpos_of_nonneg hlam hn'.le
  have hlen := (tables_shape T hT).2.2.1 b2 hb2
  have he : T.toRK.toQGenerator.weightsEmbedded =
      .ok ⟨T.c.length, fun i : Fin T.c.length => (b2.getD i 0).toReal⟩ := by
    have h1 : T.toRK.b2 = some ⟨b2.length, fun i => (b2.getD i 0).toReal⟩ := by
      simp [RKTable.toRK, hb2]
    have h2 : T.toRK.toQGenerator.weightsEmbedded = (match T.toRK.b2 with
      | none => Except.error PyErr.notImplementedError
      | some b2 => Except.ok b2) := rfl
    rw [h2, h1]
    have h3 : ∀ m, m = b2.length → (Except.ok ⟨b2.length, fun i => (b2.getD i 0).toReal⟩ :
        PyResult (Σ k, Fin k → ℝ)) = .ok ⟨m, fun i => (b2.getD i 0).toReal⟩ := by rintro _ rfl; rfl
    exact h3 _ hlen.symm
  refine ⟨hre, _, C30_solveDahlquist_embedded T.toRK.toQGenerator _ he lam u0 tEnd n hn (registered_det T hT hre),
    by simp, by simp [List.range_succ_eq_map], ?_⟩
  intro k v v' hv hv'
  have hlen : k + 1 < n + 1 := by
    by_contra hk
    rw [List.getElem?_eq_none (by simp; omega)] at hv'
    cases hv'
  rw [List.getElem?_map, List.getElem?_range (by omega)] at hv hv'
  cases hv
  cases hv'
  simp only [pow_succ', mul_assoc]
  rfl

/-- One step of length one from 1. -/
theorem rk_one_step (T : RKTable) (hT : T ∈ Tables.rkSchemes) {z : ℂ} (hz : z.re ≤ 0) :
    T.toRK.toQGenerator.solveDahlquist z 1 1 1 = .ok [1, stabilityFunction T.toRK.A T.toRK.b z] := by
  have e : ((1 / (1:ℕ) : ℝ) : ℂ) = 1 := by norm_num
  have h1 := C30_solveDahlquist T.toRK.toQGenerator z 1 1 1 one_pos (by
    rw [e, mul_one]; exact registered_det T hT hz)
  rw [e, mul_one] at h1
  refine h1.trans ?_
  simp [List.range_succ]
  rfl

/-- The same with the weights of the embedded method. -/
theorem rk_one_step_embedded (T : RKTable) (hT : T ∈ Tables.rkSchemes) (b2 : List (Quad T.d)) (hb2 : T.b2 = some b2)
    {z : ℂ} (hz : z.re ≤ 0) :
    T.toRK.toQGenerator.solveDahlquist z 1 1 1 true =
      .ok [1, stabilityFunction T.toRK.A (fun i : Fin T.c.length => (b2.getD i 0).toReal) z] := by
  obtain ⟨-, u, h1, h2, h3, h4⟩ := rk_steps_embedded T hT b2 hb2 z 1 1 (by simpa using hz) 1 one_pos
  rw [Nat.cast_one] at h1
  rw [h1]
  match u, h2 with
  | [a, b], _ =>
    have ha : a = 1 := by simpa using h3
    have := h4 0 a b rfl rfl
    rw [this, ha, mul_one]
    norm_num

/-- A list in which no value is larger than the one before. -/
theorem pairwise_of_steps {u : List ℂ}
    (h : ∀ (k : ℕ) (v v' : ℂ), u[k]? = some v → u[k + 1]? = some v' → ‖v'‖ ≤ ‖v‖) :
    u.Pairwise fun a b => ‖b‖ ≤ ‖a‖ := by
  refine List.isChain_iff_pairwise.mp ?_
  rw [List.isChain_iff_getElem]
  intro i hi
  exact h i _ _ (List.getElem?_eq_getElem _) (List.getElem?_eq_getElem _)

/-- `SDIRK54` and `ESDIRK43` need the certificate `9e-7 t³ (t - 4)²`. -/
def stabCert (name : String) : ℕ × ℚ × ℚ :=
  if name ∈ ["SDIRK54", "ESDIRK43"] then (3, 4, 9 / 10 ^ 7) else (0, 0, 0)

/-- The implicit classes whose solutions do not grow. -/
def aStableSchemes : List String :=
  ["BE", "MidPoint", "TRAP", "SDIRK2", "SDIRK2_2", "SDIRK3", "DIRK43", "GAUSS_LG", "SDIRK54", "EDIRK43", "EDIRK4",
    "ESDIRK43", "ARK548L2SAESDIRK", "ARK548L2SAESDIRK2", "ARK222EDIRK", "ARK443ESDIRK", "ARK4EDIRK"]

theorem dirk_astable (T : RKTable) (hT : T ∈ Tables.rkSchemes) (hn : T.name ∈ aStableSchemes)
    (hg : T.name ≠ "GAUSS_LG") {z : ℂ} (hz : z.re ≤ 0) : ‖stabilityFunction T.toRK.A T.toRK.b z‖ ≤ 1 := by
  have : (Tables.rkSchemes.all fun T => decide (T.name ∉ aStableSchemes) || decide (T.name = "GAUSS_LG") ||
      T.stabOk T.b 0 (stabCert T.name).1 (stabCert T.name).2.1 (stabCert T.name).2.2) = true := by decide +kernel
  have h := List.all_eq_true.mp this T hT
  have hok : T.stabOk T.b 0 (stabCert T.name).1 (stabCert T.name).2.1 (stabCert T.name).2.2 = true := by
    simpa [hn, hg] using h
  obtain ⟨hd, hs, -⟩ := tables_shape T hT
  have := T.stabOk_sound hd hs T.b (T.shapesOk_b hs) hok (fun z hz => registered_det T hT hz) hz
  rwa [Rat.cast_zero, add_zero] at this

/-- `GAUSS_LG`: the stability function. -/
theorem gauss_stab {z : ℂ} (hz : 1 - z / 2 + z ^ 2 / 12 ≠ 0) :
    stabilityFunction Tables.tGAUSS_LG.toRK.A Tables.tGAUSS_LG.toRK.b z =
      (1 + z / 2 + z ^ 2 / 12) / (1 - z / 2 + z ^ 2 / 12) := by
  have h3 : (Real.sqrt 3 : ℂ) ^ 2 = 3 := by
    rw [← Complex.ofReal_pow, Real.sq_sqrt (by norm_num)]; norm_num
  have hA : ∀ i j : Fin 2, Tables.tGAUSS_LG.toRK.A i j =
      (!![1 / 4, 1 / 4 - 1 / 6 * Real.sqrt 3; 1 / 4 + 1 / 6 * Real.sqrt 3, 1 / 4] : Matrix (Fin 2) (Fin 2) ℝ) i j := by
    intro i j
    fin_cases i <;> fin_cases j
    · change (Quad.q 1 4 : Quad 3).toReal = _
      simp
    · change (Quad.r 1 4 (-1) 6 : Quad 3).toReal = _
      simp
      ring
    · change (Quad.r 1 4 1 6 : Quad 3).toReal = _
      simp
    · change (Quad.q 1 4 : Quad 3).toReal = _
      simp
  have hb : ∀ i : Fin 2, Tables.tGAUSS_LG.toRK.b i = 1 / 2 := by
    intro i
    fin_cases i
    · change (Quad.q 1 2 : Quad 3).toReal = _
      simp
    · change (Quad.q 1 2 : Quad 3).toReal = _
      simp
  have hdet : (1 - z • Tables.tGAUSS_LG.toRK.A.map Complex.ofReal).det ≠ 0 := by rw [gauss_det]; exact hz
  refine (stab_eq_of_stages (s := 2) Tables.tGAUSS_LG.toRK.A Tables.tGAUSS_LG.toRK.b
    ![1 - z * Real.sqrt 3 / 6, 1 + z * Real.sqrt 3 / 6] (fun i => ?_) hdet hz).trans ?_
  · rw [Fin.sum_univ_two, hA, hA]
    fin_cases i
    · simp
      linear_combination z ^ 2 / 36 * h3
    · simp
      linear_combination z ^ 2 / 36 * h3
  · rw [Fin.sum_univ_two, hb, hb]
    congr 1
    simp
    ring

theorem gauss_denominator {z : ℂ} (hz : z.re ≤ 0) : 1 - z / 2 + z ^ 2 / 12 ≠ 0 := by
  rw [← gauss_det]
  exact registered_det _ (by simp [Tables.rkSchemes]) hz

theorem gauss_astable {z : ℂ} (hz : z.re ≤ 0) :
    ‖stabilityFunction Tables.tGAUSS_LG.toRK.A Tables.tGAUSS_LG.toRK.b z‖ ≤ 1 := by
  have hD := gauss_denominator hz
  rw [gauss_stab hD, norm_div, div_le_one (norm_pos_iff.mpr hD)]
  refine le_of_sq_le_sq ?_ (norm_nonneg _)
  rw [← Complex.normSq_eq_norm_sq, ← Complex.normSq_eq_norm_sq, Complex.normSq_apply, Complex.normSq_apply]
  simp [pow_two]
  nlinarith [mul_nonneg (neg_nonneg.mpr hz) (add_nonneg (sq_nonneg z.re) (sq_nonneg z.im))]

theorem tables_gauss (T : RKTable) (hT : T ∈ Tables.rkSchemes) (hg : T.name = "GAUSS_LG") :
    T = Tables.tGAUSS_LG := by
  have h : ∀ T ∈ Tables.rkSchemes, T.name = "GAUSS_LG" → T = Tables.tGAUSS_LG := by
    simp [Tables.rkSchemes]
    repeat' constructor
    all_goals first | rfl | (intro h; exact absurd h (by decide))
  exact h T hT hg

theorem rk_astable (T : RKTable) (hT : T ∈ Tables.rkSchemes) (hn : T.name ∈ aStableSchemes) {z : ℂ} (hz : z.re ≤ 0) :
    ‖stabilityFunction T.toRK.A T.toRK.b z‖ ≤ 1 := by
  by_cases hg : T.name = "GAUSS_LG"
  · have : T = Tables.tGAUSS_LG := tables_gauss T hT hg
    subst this
    exact gauss_astable hz
  · exact dirk_astable T hT hn hg hz

/-- C74: with any of these implicit classes the solutions of `solveDahlquist` never grow for `Re(lam) tEnd ≤ 0`, with
any number of steps. -/
theorem C74_contractive (T : RKTable) (hT : T ∈ Tables.rkSchemes) (hname : T.name ∈ aStableSchemes)
    (lam u0 : ℂ) (tEnd : ℝ) (hlam : lam.re * tEnd ≤ 0) (n : ℕ) (hn : 0 < n) :
    ∃ u : List ℂ, T.toRK.toQGenerator.solveDahlquist lam u0 tEnd n = .ok u ∧ u.length = n + 1 ∧ u.head? = some u0 ∧
      u.Pairwise fun a b => ‖b‖ ≤ ‖a‖ := by
  obtain ⟨hre, u, h1, h2, h3, h4⟩ := rk_steps T hT lam u0 tEnd hlam n hn
  refine ⟨u, h1, h2, h3, pairwise_of_steps fun k v v' hv hv' => ?_⟩
  rw [h4 k v v' hv hv', norm_mul]
  exact mul_le_of_le_one_left (norm_nonneg _) (rk_astable T hT hname hre)

/-- The hypotheses are met: the order 5 method, a stiff oscillation. -/
example : ∃ u : List ℂ, Tables.tARK548L2SAESDIRK.toRK.toQGenerator.solveDahlquist (-1 + 1000 * Complex.I) 1 3 5 =
    .ok u ∧ u.Pairwise fun a b => ‖b‖ ≤ ‖a‖ := by
  obtain ⟨u, h1, -, -, h2⟩ := C74_contractive Tables.tARK548L2SAESDIRK (by simp [Tables.rkSchemes]) (by decide)
    (-1 + 1000 * Complex.I) 1 3 (by simp) 5 (by norm_num)
  exact ⟨u, h1, h2⟩

/-- The growth allowed per step for the classes whose rounded coefficients miss stability. -/
def growthOf (name : String) : ℚ := if name = "ARK343ESDIRK" then 1 / 10 ^ 9 else 1 / 10 ^ 25

def nearlyStableSchemes : List String := ["ESDIRK53", "ARK324L2SAESDIRK", "ARK343ESDIRK"]

/-- C74: with the remaining implicit classes a step grows by less than `1e-25` (`ESDIRK53`, `ARK324L2SAESDIRK`) or
`1e-9` (`ARK343ESDIRK`). -/
theorem C74_nearly (T : RKTable) (hT : T ∈ Tables.rkSchemes) (hname : T.name ∈ nearlyStableSchemes)
    (lam u0 : ℂ) (tEnd : ℝ) (hlam : lam.re * tEnd ≤ 0) (n : ℕ) (hn : 0 < n) :
    ∃ u : List ℂ, T.toRK.toQGenerator.solveDahlquist lam u0 tEnd n = .ok u ∧ u.length = n + 1 ∧ u.head? = some u0 ∧
      ∀ (k : ℕ) (v v' : ℂ), u[k]? = some v → u[k + 1]? = some v' → ‖v'‖ ≤ (1 + growthOf T.name) * ‖v‖ := by
  obtain ⟨hre, u, h1, h2, h3, h4⟩ := rk_steps T hT lam u0 tEnd hlam n hn
  refine ⟨u, h1, h2, h3, fun k v v' hv hv' => ?_⟩
  rw [h4 k v v' hv hv', norm_mul]
  refine mul_le_mul_of_nonneg_right ?_ (norm_nonneg _)
  have : (Tables.rkSchemes.all fun T => decide (T.name ∉ nearlyStableSchemes) ||
      T.stabOk T.b (growthOf T.name) 0 0 0) = true := by decide +kernel
  have hok : T.stabOk T.b (growthOf T.name) 0 0 0 = true := by simpa [hname] using List.all_eq_true.mp this T hT
  obtain ⟨hd, hs, -⟩ := tables_shape T hT
  exact T.stabOk_sound hd hs T.b (T.shapesOk_b hs) hok (fun z hz => registered_det T hT hz) hre

/-- Instance: the complete list of these schemes, three steps along the imaginary axis. -/
example (T : RKTable) (hT : T ∈ Tables.rkSchemes) (hname : T.name ∈ nearlyStableSchemes) : ∃ u : List ℂ,
    T.toRK.toQGenerator.solveDahlquist (1000 * Complex.I) 1 1 (3 : ℕ) = .ok u ∧ u.length = 4 := by
  obtain ⟨u, h, h', -⟩ := C74_nearly T hT hname (1000 * Complex.I) 1 1 (by simp) 3 (by norm_num)
  exact ⟨u, h, h'⟩

/-- C74: these three do grow, for some purely imaginary `lam`. -/
theorem C74_nearly_fails (T : RKTable) (hT : T ∈ Tables.rkSchemes) (hname : T.name ∈ nearlyStableSchemes) :
    ∃ (lam v : ℂ), lam.re = 0 ∧ T.toRK.toQGenerator.solveDahlquist lam 1 1 1 = .ok [1, v] ∧ 1 < ‖v‖ := by
  have : (Tables.rkSchemes.all fun T => decide (T.name ∉ nearlyStableSchemes) ||
      T.growOk T.b (1 / 10 ^ 26)) = true := by decide +kernel
  have hok : T.growOk T.b (1 / 10 ^ 26) = true := by simpa [hname] using List.all_eq_true.mp this T hT
  obtain ⟨hd, hs, -⟩ := tables_shape T hT
  have h := T.growOk_sound hd hs T.b (T.shapesOk_b hs) hok (fun z hz => registered_det T hT hz)
  exact ⟨_, _, by simp, rk_one_step T hT (by simp), h⟩

/-- The allowed growth and the certificates for the embedded methods. -/
def embeddedCert (name : String) : ℚ × ℕ × ℚ × ℚ :=
  if name = "ESDIRK43" then (1 / 10 ^ 25, 3, 1, 92 / 10 ^ 8) else (0, 0, 0, 0)

/-- C74: the embedded weights of `EDIRK43`, `ESDIRK43` and `ARK548L2SAESDIRK2`: no step grows, for `ESDIRK43` by
less than `1e-25`. -/
theorem C74_embedded (T : RKTable) (hT : T ∈ Tables.rkSchemes)
    (hname : T.name ∈ ["EDIRK43", "ESDIRK43", "ARK548L2SAESDIRK2"])
    (lam u0 : ℂ) (tEnd : ℝ) (hlam : lam.re * tEnd ≤ 0) (n : ℕ) (hn : 0 < n) :
    ∃ u : List ℂ, T.toRK.toQGenerator.solveDahlquist lam u0 tEnd n true = .ok u ∧ u.length = n + 1 ∧
      u.head? = some u0 ∧ ∀ (k : ℕ) (v v' : ℂ), u[k]? = some v → u[k + 1]? = some v' →
        ‖v'‖ ≤ (1 + if T.name = "ESDIRK43" then 1 / 10 ^ 25 else 0) * ‖v‖ := by
  have : (Tables.rkSchemes.all fun T => decide (T.name ∉ ["EDIRK43", "ESDIRK43", "ARK548L2SAESDIRK2"]) ||
      (match T.b2 with
        | none => false
        | some b2 => T.stabOk b2 (embeddedCert T.name).1 (embeddedCert T.name).2.1 (embeddedCert T.name).2.2.1
            (embeddedCert T.name).2.2.2)) = true := by decide +kernel
  have h := List.all_eq_true.mp this T hT
  rw [decide_eq_false (not_not.mpr hname), Bool.false_or] at h
  cases hb2 : T.b2 with
  | none => rw [hb2] at h; cases h
  | some b2 =>
    rw [hb2] at h
    obtain ⟨hre, u, h1, h2, h3, h4⟩ := rk_steps_embedded T hT b2 hb2 lam u0 tEnd hlam n hn
    refine ⟨u, h1, h2, h3, fun k v v' hv hv' => ?_⟩
    rw [h4 k v v' hv hv', norm_mul]
    refine mul_le_mul_of_nonneg_right ?_ (norm_nonneg _)
    obtain ⟨hd, hs, hl, -⟩ := tables_shape T hT
    refine (T.stabOk_sound hd hs b2 (hl b2 hb2) h (fun z hz => registered_det T hT hz) hre).trans_eq ?_
    unfold embeddedCert
    split_ifs <;> norm_num

/-- Instance: the embedded weights of EDIRK43. -/
example : ∃ u : List ℂ, Tables.tEDIRK43.toRK.toQGenerator.solveDahlquist (-1 + 1000 * Complex.I) 1 3 (5 : ℕ) true =
    .ok u ∧ u.length = 6 := by
  obtain ⟨u, h, h', -⟩ := C74_embedded Tables.tEDIRK43 (by simp [Tables.rkSchemes]) (by decide)
    (-1 + 1000 * Complex.I) 1 3 (by simp) 5 (by norm_num)
  exact ⟨u, h, h'⟩

/-- C74: the embedded weights of the other three implicit pairs do grow for some purely imaginary `lam`. -/
theorem C74_embedded_fails (T : RKTable) (hT : T ∈ Tables.rkSchemes)
    (hname : T.name ∈ ["ESDIRK53", "ARK548L2SAESDIRK", "ARK324L2SAESDIRK"]) :
    ∃ (lam v : ℂ), lam.re = 0 ∧ T.toRK.toQGenerator.solveDahlquist lam 1 1 1 true = .ok [1, v] ∧ 1 < ‖v‖ := by
  have : (Tables.rkSchemes.all fun T => decide (T.name ∉ ["ESDIRK53", "ARK548L2SAESDIRK", "ARK324L2SAESDIRK"]) ||
      (match T.b2 with
        | none => false
        | some b2 => T.growOk b2 (10 ^ 60))) = true := by decide +kernel
  have h := List.all_eq_true.mp this T hT
  rw [decide_eq_false (not_not.mpr hname), Bool.false_or] at h
  cases hb2 : T.b2 with
  | none => rw [hb2] at h; cases h
  | some b2 =>
    rw [hb2] at h
    obtain ⟨hd, hs, hl, -⟩ := tables_shape T hT
    have h := T.growOk_sound hd hs b2 (hl b2 hb2) h (fun z hz => registered_det T hT hz)
    exact ⟨_, _, by simp, rk_one_step_embedded T hT b2 hb2 (by simp), h⟩

/-- C74: every registered class is explicit or in one of the two lists. -/
theorem C74_complete : ∀ T ∈ Tables.rkSchemes,
    T.name ∈ explicitSchemes ∨ T.name ∈ aStableSchemes ∨ T.name ∈ nearlyStableSchemes := by
  decide +kernel

/-- Instance: backward Euler is in one of the lists. -/
example : Tables.tBE.name ∈ explicitSchemes ∨ Tables.tBE.name ∈ aStableSchemes ∨ Tables.tBE.name ∈ nearlyStableSchemes :=
  C74_complete Tables.tBE (by simp [Tables.rkSchemes])

/-- C74: with an explicit class every step multiplies by more than any given factor if `|lam| tEnd / n` is large. -/
theorem C74_explicit_fails (T : RKTable) (hT : T ∈ Tables.rkSchemes) (hname : T.name ∈ explicitSchemes) (K : ℝ) :
    ∃ B : ℝ, ∀ (lam u0 : ℂ) (tEnd : ℝ) (n : ℕ), 0 < n → B ≤ ‖lam * (tEnd / n : ℝ)‖ →
      ∃ u : List ℂ, T.toRK.toQGenerator.solveDahlquist lam u0 tEnd n = .ok u ∧ u.length = n + 1 ∧ u.head? = some u0 ∧
        ∀ (k : ℕ) (v v' : ℂ), u[k]? = some v → u[k + 1]? = some v' → K * ‖v‖ ≤ ‖v'‖ := by
  have hA := C35_explicit T hT hname
  have hsum : ∑ i, T.toRK.b i ≠ 0 := by
    have h1 := C32_linear_conditions T hT 0 (tables_shape T hT).2.2.2.1
    have h2 : ((tableAccuracy T.name : ℚ) : ℝ) ≤ ((2 / 10 ^ 10 : ℚ) : ℝ) :=
      Rat.cast_le.mpr (tableAccuracy_le T.name)
    have h3 : T.toRK.b ⬝ᵥ ((T.toRK.A ^ 0) *ᵥ fun _ => 1) = ∑ i, T.toRK.b i := by simp [dotProduct]
    rw [h3] at h1
    intro h0
    rw [h0] at h1
    push_cast at h2
    norm_num at h1 h2
    linarith
  obtain ⟨B, hB⟩ := explicit_unbounded T.toRK.A T.toRK.b hA hsum K
  refine ⟨B, fun lam u0 tEnd n hn hz => ?_⟩
  obtain ⟨u, h1, h2, h3, h4⟩ := dahlquist_steps T.toRK.toQGenerator lam u0 tEnd n hn (by
    have := det_explicit T.toRK.A hA (lam * ((tEnd / n : ℝ) : ℂ))
    change (1 - (lam * ((tEnd / n : ℝ) : ℂ)) • T.toRK.A.map Complex.ofReal).det ≠ 0
    rw [this]
    exact one_ne_zero)
  refine ⟨u, h1, h2, h3, fun k v v' hv hv' => ?_⟩
  rw [h4 k v v' hv hv', norm_mul]
  exact mul_le_mul_of_nonneg_right (hB _ hz) (norm_nonneg _)

/-- Ratio of the leading coefficients of the stability function. -/
def stiffRatio (T : RKTable) : ℚ :=
  ((T.stabP T.b).getD (T.diag.filter QPoly.pos).length 0).a / (T.stabD.getD (T.diag.filter QPoly.pos).length 0).a

theorem dirk_limit (T : RKTable) (hT : T ∈ Tables.rkSchemes) {ρ : ℚ} (hok : T.limitOk T.b ρ = true)
    (δ : ℝ) (hδ : 0 < δ) :
    ∃ B : ℝ, ∀ (lam u0 : ℂ) (tEnd : ℝ) (n : ℕ), 0 < n → lam.re * tEnd ≤ 0 → B ≤ ‖lam * (tEnd / n : ℝ)‖ →
      ∃ u : List ℂ, T.toRK.toQGenerator.solveDahlquist lam u0 tEnd n = .ok u ∧ u.length = n + 1 ∧ u.head? = some u0 ∧
        ∀ (k : ℕ) (v v' : ℂ), u[k]? = some v → u[k + 1]? = some v' → ‖v' - ρ * v‖ ≤ δ * ‖v‖ := by
  obtain ⟨hd, hs, -⟩ := tables_shape T hT
  obtain ⟨C, hC⟩ := T.limitOk_sound hd hs T.b (T.shapesOk_b hs) hok (fun z hz => registered_det T hT hz)
  refine ⟨|C| / δ, fun lam u0 tEnd n hn hlam hB => ?_⟩
  obtain ⟨hre, u, h1, h2, h3, h4⟩ := rk_steps T hT lam u0 tEnd hlam n hn
  refine ⟨u, h1, h2, h3, fun k v v' hv hv' => ?_⟩
  rw [h4 k v v' hv hv', ← sub_mul, norm_mul]
  refine mul_le_mul_of_nonneg_right ((hC _ hre).trans ?_) (norm_nonneg _)
  have hpos : 0 < 1 + ‖lam * (tEnd / n : ℝ)‖ := by positivity
  rw [div_le_iff₀ hpos]
  rw [div_le_iff₀ hδ] at hB
  nlinarith [le_abs_self C]

/-- The classes with `R(∞) = 0`. -/
def lStableSchemes : List String :=
  ["BE", "SDIRK2", "SDIRK2_2", "SDIRK3", "DIRK43", "SDIRK54", "ESDIRK43", "ARK548L2SAESDIRK2", "ARK222EDIRK",
    "ARK443ESDIRK", "ARK343ESDIRK"]

/-- The limits of the factor by which a step multiplies. -/
def stiffLimitOf (name : String) : ℚ :=
  if name ∈ ["MidPoint", "TRAP"] then -1 else if name = "GAUSS_LG" then 1 else if name = "EDIRK43" then -341 / 625
  else if name = "EDIRK4" then -379 / 570 else if name = "ARK4EDIRK" then 5 / 12 else 0

def undampedSchemes : List String := ["MidPoint", "TRAP", "GAUSS_LG", "EDIRK43", "EDIRK4", "ARK4EDIRK"]

theorem stiffLimitOf_gauss : stiffLimitOf Tables.tGAUSS_LG.name = 1 := by decide +kernel

/-- C75: for `Re(lam) tEnd ≤ 0` and large `|lam| tEnd / n` every step multiplies by nearly the given number, 0 for the
first list. -/
theorem C75_stiff_limit (T : RKTable) (hT : T ∈ Tables.rkSchemes)
    (hname : T.name ∈ lStableSchemes ∨ T.name ∈ undampedSchemes) (δ : ℝ) (hδ : 0 < δ) :
    ∃ B : ℝ, ∀ (lam u0 : ℂ) (tEnd : ℝ) (n : ℕ), 0 < n → lam.re * tEnd ≤ 0 → B ≤ ‖lam * (tEnd / n : ℝ)‖ →
      ∃ u : List ℂ, T.toRK.toQGenerator.solveDahlquist lam u0 tEnd n = .ok u ∧ u.length = n + 1 ∧ u.head? = some u0 ∧
        ∀ (k : ℕ) (v v' : ℂ), u[k]? = some v → u[k + 1]? = some v' →
          ‖v' - stiffLimitOf T.name * v‖ ≤ δ * ‖v‖ := by
  by_cases hg : T.name = "GAUSS_LG"
  · have : T = Tables.tGAUSS_LG := tables_gauss T hT hg
    subst this
    refine ⟨max 12 (48 / δ), fun lam u0 tEnd n hn hlam hB => ?_⟩
    obtain ⟨hre, u, h1, h2, h3, h4⟩ := rk_steps _ hT lam u0 tEnd hlam n hn
    refine ⟨u, h1, h2, h3, fun k v v' hv hv' => ?_⟩
    rw [stiffLimitOf_gauss, Rat.cast_one, h4 k v v' hv hv', ← sub_mul, norm_mul]
    refine mul_le_mul_of_nonneg_right ?_ (norm_nonneg _)
    set z := lam * ((tEnd / n : ℝ) : ℂ)
    have hD := gauss_denominator hre
    have hz12 := le_trans (le_max_left _ _) hB
    have hzδ := le_trans (le_max_right _ _) hB
    rw [gauss_stab hD]
    have e : (1 + z / 2 + z ^ 2 / 12) / (1 - z / 2 + z ^ 2 / 12) - 1 = z / (1 - z / 2 + z ^ 2 / 12) := by
      rw [div_sub_one hD]
      congr 1
      ring
    rw [e, norm_div, div_le_iff₀ (norm_pos_iff.mpr hD)]
    have h5 : ‖z‖ ^ 2 / 12 ≤ ‖1 - z / 2 + z ^ 2 / 12‖ + (1 + ‖z‖ / 2) := by
      have h6 : ‖z ^ 2 / 12‖ = ‖z‖ ^ 2 / 12 := by simp
      have h7 : ‖z / 2 - 1‖ ≤ 1 + ‖z‖ / 2 := by
        refine (norm_sub_le _ _).trans ?_
        simp
        linarith
      have h8 := norm_add_le (1 - z / 2 + z ^ 2 / 12) (z / 2 - 1)
      rw [show (1 - z / 2 + z ^ 2 / 12) + (z / 2 - 1) = z ^ 2 / 12 by ring, h6] at h8
      linarith
    rw [div_le_iff₀ hδ] at hzδ
    have h9 : ‖z‖ ^ 2 / 48 ≤ ‖1 - z / 2 + z ^ 2 / 12‖ := by nlinarith
    have h10 := mul_le_mul_of_nonneg_left h9 hδ.le
    nlinarith
  · have : (Tables.rkSchemes.all fun T => !decide (T.name ∈ lStableSchemes ∨ T.name ∈ undampedSchemes) ||
        decide (T.name = "GAUSS_LG") || T.limitOk T.b (stiffLimitOf T.name)) = true := by decide +kernel
    have h := List.all_eq_true.mp this T hT
    rw [decide_eq_true hname, decide_eq_false hg] at h
    exact dirk_limit T hT (by simpa using h) δ hδ

/-- Instance: the trapezoidal rule approaches the factor of its table. -/
example : ∃ B : ℝ, ∀ n : ℕ, 0 < n → B ≤ ‖(-1000000 : ℂ) * (1 / n : ℝ)‖ → ∃ u : List ℂ,
    Tables.tTRAP.toRK.toQGenerator.solveDahlquist (-1000000) 1 1 n = .ok u ∧ u.length = n + 1 := by
  obtain ⟨B, h⟩ := C75_stiff_limit Tables.tTRAP (by simp [Tables.rkSchemes]) (by decide) (1 / 1000) (by norm_num)
  refine ⟨B, fun n hn hB => ?_⟩
  obtain ⟨u, h1, h2, -⟩ := h (-1000000) 1 1 n hn (by norm_num) hB
  exact ⟨u, h1, h2⟩

/-- C75: with these classes one step damps any solution with `Re(lam) tEnd ≤ 0` by any factor, if `|lam| tEnd / n` is
large. -/
theorem C75_damps (T : RKTable) (hT : T ∈ Tables.rkSchemes) (hname : T.name ∈ lStableSchemes) (δ : ℝ) (hδ : 0 < δ) :
    ∃ B : ℝ, ∀ (lam u0 : ℂ) (tEnd : ℝ) (n : ℕ), 0 < n → lam.re * tEnd ≤ 0 → B ≤ ‖lam * (tEnd / n : ℝ)‖ →
      ∃ u : List ℂ, T.toRK.toQGenerator.solveDahlquist lam u0 tEnd n = .ok u ∧ u.length = n + 1 ∧ u.head? = some u0 ∧
        ∀ (k : ℕ) (v v' : ℂ), u[k]? = some v → u[k + 1]? = some v' → ‖v'‖ ≤ δ * ‖v‖ := by
  obtain ⟨B, h⟩ := C75_stiff_limit T hT (Or.inl hname) δ hδ
  have h0 : stiffLimitOf T.name = 0 := by
    have : ∀ s ∈ lStableSchemes, stiffLimitOf s = 0 := by decide +kernel
    exact this _ hname
  rw [h0] at h
  exact ⟨B, by simpa using h⟩

/-- C75: with `ESDIRK53`, `ARK548L2SAESDIRK` and `ARK324L2SAESDIRK` the limit of the damping factor is not zero, but
smaller than `1e-22`. -/
theorem C75_nearly (T : RKTable) (hT : T ∈ Tables.rkSchemes)
    (hname : T.name ∈ ["ESDIRK53", "ARK548L2SAESDIRK", "ARK324L2SAESDIRK"]) :
    ∃ ρ : ℝ, ρ ≠ 0 ∧ |ρ| < 1 / 10 ^ 22 ∧ ∀ δ : ℝ, 0 < δ →
    ∃ B : ℝ, ∀ (lam u0 : ℂ) (tEnd : ℝ) (n : ℕ), 0 < n → lam.re * tEnd ≤ 0 → B ≤ ‖lam * (tEnd / n : ℝ)‖ →
      ∃ u : List ℂ, T.toRK.toQGenerator.solveDahlquist lam u0 tEnd n = .ok u ∧ u.length = n + 1 ∧ u.head? = some u0 ∧
        ∀ (k : ℕ) (v v' : ℂ), u[k]? = some v → u[k + 1]? = some v' → ‖v' - ρ * v‖ ≤ δ * ‖v‖ := by
  have : (Tables.rkSchemes.all fun T => decide (T.name ∉ ["ESDIRK53", "ARK548L2SAESDIRK", "ARK324L2SAESDIRK"]) ||
      (T.limitOk T.b (stiffRatio T) && decide (stiffRatio T ≠ 0) && decide (|stiffRatio T| < 1 / 10 ^ 22))) = true := by
    decide +kernel
  have h := List.all_eq_true.mp this T hT
  rw [decide_eq_false (not_not.mpr hname), Bool.false_or, Bool.and_eq_true, Bool.and_eq_true, decide_eq_true_eq,
    decide_eq_true_eq] at h
  refine ⟨stiffRatio T, by exact_mod_cast h.1.2, ?_, fun δ hδ => ?_⟩
  · have := (Rat.cast_lt (K := ℝ)).mpr h.2
    push_cast at this
    exact this
  · simpa only [Complex.ofReal_ratCast] using dirk_limit T hT h.1.1 δ hδ

/-- Instance: ESDIRK53. -/
example : ∃ ρ : ℝ, ρ ≠ 0 ∧ |ρ| < 1 / 10 ^ 22 :=
  let ⟨ρ, h, h', _⟩ := C75_nearly Tables.tESDIRK53 (by simp [Tables.rkSchemes]) (by decide)
  ⟨ρ, h, h'⟩

/-- C75: the other classes do not damp: the values shrink at most by the factor four. -/
theorem C75_damps_fails (T : RKTable) (hT : T ∈ Tables.rkSchemes) (hname : T.name ∈ undampedSchemes) :
    ∃ B : ℝ, ∀ (lam u0 : ℂ) (tEnd : ℝ) (n : ℕ), 0 < n → lam.re * tEnd ≤ 0 → B ≤ ‖lam * (tEnd / n : ℝ)‖ →
      ∃ u : List ℂ, T.toRK.toQGenerator.solveDahlquist lam u0 tEnd n = .ok u ∧ u.length = n + 1 ∧ u.head? = some u0 ∧
        ∀ (k : ℕ) (v v' : ℂ), u[k]? = some v → u[k + 1]? = some v' → ‖v‖ / 4 ≤ ‖v'‖ := by
  obtain ⟨B, h⟩ := C75_stiff_limit T hT (Or.inr hname) (1 / 6) (by norm_num)
  refine ⟨B, fun lam u0 tEnd n hn hlam hB => ?_⟩
  obtain ⟨u, h1, h2, h3, h4⟩ := h lam u0 tEnd n hn hlam hB
  refine ⟨u, h1, h2, h3, fun k v v' hv hv' => ?_⟩
  have h5 := h4 k v v' hv hv'
  have h6 : 5 / 12 ≤ |stiffLimitOf T.name| := by
    have : ∀ s ∈ undampedSchemes, 5 / 12 ≤ |stiffLimitOf s| := by decide +kernel
    exact this _ hname
  have h6 : (5 / 12 : ℝ) ≤ |(stiffLimitOf T.name : ℝ)| := by
    have := (Rat.cast_le (K := ℝ)).mpr h6
    push_cast at this
    exact this
  have h7 : ‖(stiffLimitOf T.name : ℂ) * v‖ = |(stiffLimitOf T.name : ℝ)| * ‖v‖ := by
    rw [norm_mul, ← Complex.ofReal_ratCast, Complex.norm_real, Real.norm_eq_abs]
  have h8 := norm_sub_norm_le ((stiffLimitOf T.name : ℂ) * v) v'
  rw [h7, norm_sub_rev] at h8
  have h9 := mul_le_mul_of_nonneg_right h6 (norm_nonneg v)
  linarith

/-- C75: every implicit class is in one of the three lists. -/
theorem C75_complete : ∀ T ∈ Tables.rkSchemes, T.name ∈ explicitSchemes ∨ T.name ∈ lStableSchemes ∨
    T.name ∈ undampedSchemes ∨ T.name ∈ ["ESDIRK53", "ARK548L2SAESDIRK", "ARK324L2SAESDIRK"] := by
  decide +kernel

/-- The hypotheses are met: backward Euler with a hundred steps. -/
example : ∃ B : ℝ, ∀ x : ℝ, max B 0 ≤ x → ∃ u : List ℂ,
    Tables.tBE.toRK.toQGenerator.solveDahlquist (-100 * x : ℝ) 1 1 (100 : ℕ) = .ok u ∧
      ∀ (k : ℕ) (v v' : ℂ), u[k]? = some v → u[k + 1]? = some v' → ‖v'‖ ≤ 1 / 1000 * ‖v‖ := by
  obtain ⟨B, h⟩ := C75_damps Tables.tBE (by simp [Tables.rkSchemes]) (by decide) (1 / 1000) (by norm_num)
  refine ⟨B, fun x hx => ?_⟩
  have h0 : 0 ≤ x := (le_max_right _ _).trans hx
  obtain ⟨u, h1, -, -, h2⟩ := h ((-100 * x : ℝ) : ℂ) 1 1 100 (by norm_num) (by rw [Complex.ofReal_re]; linarith) (by
    rw [← Complex.ofReal_mul, Complex.norm_real, Real.norm_eq_abs]
    have : -100 * x * (1 / ((100:ℕ):ℝ)) = -x := by push_cast; ring
    rw [this, abs_neg, abs_of_nonneg h0]
    exact (le_max_left _ _).trans hx)
  exact ⟨u, h1, h2⟩

end QMat
