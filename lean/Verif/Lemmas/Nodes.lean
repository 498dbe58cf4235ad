import Verif.Lemmas.OrthoRange

/-!
# Lemmas on `NodesGenerator.getNodes` for the orthogonal-polynomial families
-/

namespace QMat

open Polynomial Spec NodesGenerator

theorem prevPoly_neg (α β : ℕ → ℝ) (m : ℕ) (t : ℝ) :
    (prevPoly (fun k => -α k) β m).eval t = -((-1) ^ m * (prevPoly α β m).eval (-t)) := by
  cases m with
  | zero => simp [prevPoly]
  | succ m => simp only [prevPoly]; rw [eval_orthPoly_neg]; ring

/-- The coefficients of a family, with ratio bounds on both sides. -/
structure Family (α β : ℕ → ℝ) : Prop where
  right : ∃ ρ, RatioBound α β ρ
  left : ∃ ρ, RatioBound (fun k => -α k) β ρ

/-- Node types computed from orthogonal polynomials. -/
def ORTHO_TYPES : List String := ["LEGENDRE", "CHEBY-1", "CHEBY-2", "CHEBY-3", "CHEBY-4"]

/-- `alpha` of `getOrthogPolyCoefficients`. -/
noncomputable def baseAlpha (nt : String) (k : ℕ) : ℝ :=
  if nt = "CHEBY-3" then (if k = 0 then 0.5 else 0)
  else if nt = "CHEBY-4" then (if k = 0 then -0.5 else 0) else 0

/-- `beta` of `getOrthogPolyCoefficients`. -/
noncomputable def baseBeta (nt : String) (k : ℕ) : ℝ :=
  if nt = "LEGENDRE" then (if k = 0 then 2 else (k:ℝ) ^ 2 / (4 * (k:ℝ) ^ 2 - 1))
  else if nt = "CHEBY-1" then (if k = 1 then 0.5 else if k = 0 then Real.pi else 0.25)
  else if nt = "CHEBY-2" then (if k = 0 then Real.pi / 2 else 0.25)
  else (if k = 0 then Real.pi else 0.25)

theorem getOrthogPolyCoefficients_eq {nt : String} (qt : String) (hnt : nt ∈ ORTHO_TYPES) {n : ℕ}
    (hn : 0 < n) :
    getOrthogPolyCoefficients ⟨nt, qt⟩ n = .ok (baseAlpha nt, baseBeta nt) := by
  simp only [ORTHO_TYPES, List.mem_cons, List.not_mem_nil, or_false] at hnt
  have h : n ≠ 0 := hn.ne'
  rcases hnt with rfl | rfl | rfl | rfl | rfl <;>
    simp only [getOrthogPolyCoefficients, checkNonEmpty, h, if_false, String.reduceEq, if_true] <;>
    rfl

theorem ratioBound_half {α β : ℕ → ℝ} (h0 : α 0 ≤ 1 / 2) (h : ∀ k, 1 ≤ k → α k = 0)
    (hb : ∀ k, 1 ≤ k → β k = 1 / 4) : RatioBound α β fun _ => 1 / 2 where
  pos _ _ := by norm_num
  first := by linarith
  alpha := h
  beta k hk := by rw [hb k hk]; norm_num
  step k hk := by rw [hb k hk]; norm_num

theorem family_base {nt : String} (hnt : nt ∈ ORTHO_TYPES) :
    Family (baseAlpha nt) (baseBeta nt) := by
  simp only [ORTHO_TYPES, List.mem_cons, List.not_mem_nil, or_false] at hnt
  have sym : ∀ {α β ρ : ℕ → ℝ}, RatioBound α β ρ → (∀ k, α k = 0) → Family α β := by
    intro α β ρ h h0
    refine ⟨⟨ρ, h⟩, ⟨ρ, ?_⟩⟩
    have : (fun k => -α k) = α := by funext k; simp [h0]
    rwa [this]
  rcases hnt with rfl | rfl | rfl | rfl | rfl
  · refine sym (ρ := fun k => (k:ℝ) / (2 * k - 1)) ?_ (fun k => by simp [baseAlpha])
    have hk' : ∀ k : ℕ, 1 ≤ k → (1:ℝ) ≤ k := fun k hk => by exact_mod_cast hk
    refine ⟨fun k hk => ?_, ?_, fun k hk => by simp [baseAlpha], fun k hk => ?_, fun k hk => ?_⟩
    · have := hk' k hk
      exact div_pos (by linarith) (by linarith)
    · simp [baseAlpha]; norm_num
    · have := hk' k hk
      simp only [baseBeta, if_true]
      rw [if_neg (by omega)]
      exact div_pos (by nlinarith) (by nlinarith)
    · have := hk' k hk
      simp only [baseBeta, if_true]
      rw [if_neg (by omega)]
      have h1 : (2 * (k:ℝ) - 1) ≠ 0 := by linarith
      have h2 : (2 * (k:ℝ) + 1) ≠ 0 := by linarith
      have h3 : (k:ℝ) ≠ 0 := by linarith
      push_cast
      rw [show (4 * (k:ℝ) ^ 2 - 1) = (2 * (k:ℝ) - 1) * (2 * (k:ℝ) + 1) by ring,
        show (2 * ((k:ℝ) + 1) - 1) = 2 * (k:ℝ) + 1 by ring]
      apply le_of_eq
      rw [div_div_eq_mul_div, eq_sub_iff_add_eq, div_mul_eq_mul_div, div_div,
        ← eq_sub_iff_add_eq, div_eq_iff (by positivity)]
      field_simp
      ring
  · refine sym (ρ := fun k => if k = 1 then 1 else 1 / 2) ?_ (fun k => by simp [baseAlpha])
    refine ⟨fun k hk => ?_, ?_, fun k hk => by simp [baseAlpha], fun k hk => ?_, fun k hk => ?_⟩
    · split_ifs <;> norm_num
    · simp [baseAlpha]
    · simp only [baseBeta, String.reduceEq, if_true, if_false]
      split_ifs <;> first | omega | norm_num
    · simp only [baseBeta, String.reduceEq, if_true, if_false]
      split_ifs <;> first | omega | norm_num
  · refine sym (ratioBound_half (by simp [baseAlpha]) (by simp [baseAlpha]) fun k hk => ?_)
      (by simp [baseAlpha])
    simp [baseBeta, show k ≠ 0 by omega]; norm_num
  · refine ⟨⟨_, ratioBound_half ?_ (fun k hk => ?_) fun k hk => ?_⟩,
      ⟨_, ratioBound_half ?_ (fun k hk => ?_) fun k hk => ?_⟩⟩
    · simp [baseAlpha]; norm_num
    · simp [baseAlpha, show k ≠ 0 by omega]
    · simp [baseBeta, show k ≠ 0 by omega]; norm_num
    · simp [baseAlpha]; norm_num
    · simp [baseAlpha, show k ≠ 0 by omega]
    · simp [baseBeta, show k ≠ 0 by omega]; norm_num
  · refine ⟨⟨_, ratioBound_half ?_ (fun k hk => ?_) fun k hk => ?_⟩,
      ⟨_, ratioBound_half ?_ (fun k hk => ?_) fun k hk => ?_⟩⟩
    · simp [baseAlpha]; norm_num
    · simp [baseAlpha, show k ≠ 0 by omega]
    · simp [baseBeta, show k ≠ 0 by omega]; norm_num
    · simp [baseAlpha]; norm_num
    · simp [baseAlpha, show k ≠ 0 by omega]
    · simp [baseBeta, show k ≠ 0 by omega]; norm_num

/-- The last step of the recurrence with coefficients `a`, `b`. -/
noncomputable def lastPoly (α β : ℕ → ℝ) (m : ℕ) (a b : ℝ) : ℝ[X] :=
  (X - C a) * orthPoly α β m - C b * prevPoly α β m

theorem eval_lastPoly (α β : ℕ → ℝ) (m : ℕ) (a b t : ℝ) :
    (lastPoly α β m a b).eval t =
      (t - a) * (orthPoly α β m).eval t - b * (prevPoly α β m).eval t := by
  simp [lastPoly]

theorem eval_lastPoly_neg (α β : ℕ → ℝ) (m : ℕ) (a b t : ℝ) :
    (lastPoly (fun k => -α k) β m (-a) b).eval t =
      (-1) ^ (m + 1) * (lastPoly α β m a b).eval (-t) := by
  rw [eval_lastPoly, eval_lastPoly, eval_orthPoly_neg, prevPoly_neg]; ring

theorem RatioBound.other_pos {α β ρ : ℕ → ℝ} (h : RatioBound α β ρ) {m : ℕ} {a : ℝ} (ha : a ≤ 0)
    {t : ℝ} (ht : 1 ≤ t) : 0 < (lastPoly α β m a (β m)).eval t := by
  rw [eval_lastPoly]
  have h1 := h.beta_prev_lt ht m
  have h2 := h.eval_pos ht m
  nlinarith

/-- Where the roots of the modified polynomial are, for each quadrature type. -/
structure LastSpec (α β : ℕ → ℝ) (m : ℕ) (a b : ℝ) (L R : Prop) : Prop where
  right : ∀ t, 1 < t → 0 < (lastPoly α β m a b).eval t
  left : ∀ t, 1 < t → 0 < (-1) ^ (m + 1) * (lastPoly α β m a b).eval (-t)
  atRight : (lastPoly α β m a b).eval 1 = 0 ↔ R
  atLeft : (lastPoly α β m a b).eval (-1) = 0 ↔ L

theorem neg_pow_mul_pos_ne {m : ℕ} {x : ℝ} (h : 0 < (-1) ^ m * x) : x ≠ 0 := by
  rintro rfl
  simp at h

theorem Family.gauss {α β : ℕ → ℝ} (h : Family α β) (m : ℕ) :
    LastSpec α β m (α m) (β m) False False := by
  obtain ⟨⟨ρ, hr⟩, ⟨ρ', hl⟩⟩ := h
  have er : ∀ t, (lastPoly α β m (α m) (β m)).eval t = (orthPoly α β (m + 1)).eval t := fun t => by
    rw [orthPoly_step, lastPoly]
  have el : ∀ t, (lastPoly (fun k => -α k) β m (-α m) (β m)).eval t =
      (orthPoly (fun k => -α k) β (m + 1)).eval t := fun t => by
    rw [orthPoly_step, lastPoly]
  have pr : ∀ t, 1 ≤ t → 0 < (lastPoly α β m (α m) (β m)).eval t := fun t ht => by
    rw [er]; exact hr.eval_pos ht _
  have pl : ∀ t, 1 ≤ t → 0 < (-1) ^ (m + 1) * (lastPoly α β m (α m) (β m)).eval (-t) :=
    fun t ht => by
      rw [← eval_lastPoly_neg, el]; exact hl.eval_pos ht _
  exact ⟨fun t ht => pr t ht.le, fun t ht => pl t ht.le, by
    simpa using (pr 1 le_rfl).ne', by simpa using neg_pow_mul_pos_ne (pl 1 le_rfl)⟩

/-- `RADAU-RIGHT` value of the last coefficient. -/
noncomputable def radauRight (α β : ℕ → ℝ) (m : ℕ) : ℝ :=
  1 - β m * (prevPoly α β m).eval 1 / (orthPoly α β m).eval 1

/-- `RADAU-LEFT` value of the last coefficient. -/
noncomputable def radauLeft (α β : ℕ → ℝ) (m : ℕ) : ℝ :=
  -1 - β m * (prevPoly α β m).eval (-1) / (orthPoly α β m).eval (-1)

theorem radauLeft_neg (α β : ℕ → ℝ) (m : ℕ) :
    radauRight (fun k => -α k) β m = -radauLeft α β m := by
  rw [radauRight, radauLeft, prevPoly_neg, eval_orthPoly_neg]
  have h : ((-1 : ℝ) ^ m) ≠ 0 := pow_ne_zero _ (by norm_num)
  rw [show β m * -((-1) ^ m * (prevPoly α β m).eval (-1)) /
      ((-1) ^ m * (orthPoly α β m).eval (-1)) =
      -(β m * (prevPoly α β m).eval (-1) / (orthPoly α β m).eval (-1)) by
    rw [show β m * -((-1) ^ m * (prevPoly α β m).eval (-1)) =
      (-1) ^ m * -(β m * (prevPoly α β m).eval (-1)) by ring,
      mul_div_mul_left _ _ h, neg_div]]
  ring

theorem RatioBound.radau {α β ρ : ℕ → ℝ} (h : RatioBound α β ρ) (m : ℕ) :
    (lastPoly α β m (radauRight α β m) (β m)).eval 1 = 0 ∧ 0 < radauRight α β m ∧
    ∀ t, 1 < t → 0 < (lastPoly α β m (radauRight α β m) (β m)).eval t := by
  have p1 := h.eval_pos le_rfl m
  have hlt := h.beta_prev_lt le_rfl m
  have h1 : (1 - radauRight α β m) * (orthPoly α β m).eval 1 = β m * (prevPoly α β m).eval 1 := by
    rw [radauRight]; field_simp; ring
  refine ⟨by rw [eval_lastPoly, h1, sub_self], ?_, fun t ht => ?_⟩
  · rw [radauRight, sub_pos, div_lt_one p1]; exact hlt
  · rw [eval_lastPoly]
    refine h.modified_pos ?_ h1 ht
    rcases Nat.eq_zero_or_pos m with h0 | h0
    · exact Or.inl h0
    · exact Or.inr (h.beta m h0).le

theorem Family.radauRight {α β : ℕ → ℝ} (h : Family α β) (m : ℕ) :
    LastSpec α β m (radauRight α β m) (β m) False True := by
  obtain ⟨⟨ρ, hr⟩, ⟨ρ', hl⟩⟩ := h
  obtain ⟨h1, hpos, hgt⟩ := hr.radau m
  have pl : ∀ t, 1 ≤ t → 0 < (-1) ^ (m + 1) *
      (lastPoly α β m (QMat.radauRight α β m) (β m)).eval (-t) :=
    fun t ht => by
      rw [← eval_lastPoly_neg]; exact hl.other_pos (by linarith) ht
  exact ⟨hgt, fun t ht => pl t ht.le, by simpa using h1, by
    simpa using neg_pow_mul_pos_ne (pl 1 le_rfl)⟩

theorem neg_one_pow_mul_self (m : ℕ) : ((-1 : ℝ) ^ m) * (-1) ^ m = 1 := by
  rw [← mul_pow]; norm_num

theorem Family.radauLeft {α β : ℕ → ℝ} (h : Family α β) (m : ℕ) :
    LastSpec α β m (radauLeft α β m) (β m) True False := by
  obtain ⟨⟨ρ, hr⟩, ⟨ρ', hl⟩⟩ := h
  obtain ⟨h1, hpos, hgt⟩ := hl.radau m
  rw [radauLeft_neg] at h1 hpos hgt
  have pr : ∀ t, 1 ≤ t → 0 < (lastPoly α β m (QMat.radauLeft α β m) (β m)).eval t :=
    fun t ht => hr.other_pos (by linarith) ht
  refine ⟨fun t ht => pr t ht.le, fun t ht => ?_, by simpa using (pr 1 le_rfl).ne', ?_⟩
  · rw [← eval_lastPoly_neg]; exact hgt t ht
  · rw [eval_lastPoly_neg] at h1
    have := (mul_eq_zero.mp h1).resolve_left (pow_ne_zero _ (by norm_num))
    simpa using this

theorem Family.lobatto {α β : ℕ → ℝ} (h : Family α β) {m : ℕ} (hm : 0 < m) :
    ∃ a b, npSolve2 ((orthPoly α β m).eval (-1)) ((prevPoly α β m).eval (-1))
        ((orthPoly α β m).eval 1) ((prevPoly α β m).eval 1)
        (-1 * (orthPoly α β m).eval (-1)) (1 * (orthPoly α β m).eval 1) = .ok (a, b) ∧
      0 < b ∧ LastSpec α β m a b True True := by
  obtain ⟨⟨ρ, hr⟩, ⟨ρ', hl⟩⟩ := h
  obtain ⟨m, rfl⟩ : ∃ k, m = k + 1 := ⟨m - 1, by omega⟩
  have b1 := hr.eval_pos le_rfl (m + 1)
  have b2 : 0 < (prevPoly α β (m + 1)).eval 1 := hr.eval_pos le_rfl m
  have q1 := hl.eval_pos le_rfl (m + 1)
  have q2 : 0 < (prevPoly (fun k => -α k) β (m + 1)).eval 1 := hl.eval_pos le_rfl m
  set s : ℝ := (-1) ^ (m + 1) with hs
  have hss : s * s = 1 := neg_one_pow_mul_self _
  have hs0 : s ≠ 0 := pow_ne_zero _ (by norm_num)
  have ea : (orthPoly α β (m + 1)).eval (-1) =
      s * (orthPoly (fun k => -α k) β (m + 1)).eval 1 := by
    rw [eval_orthPoly_neg, ← hs, ← mul_assoc, hss, one_mul]
  have ep : (prevPoly α β (m + 1)).eval (-1) =
      -(s * (prevPoly (fun k => -α k) β (m + 1)).eval 1) := by
    rw [prevPoly_neg, ← hs]; linear_combination (-(prevPoly α β (m + 1)).eval (-1)) * hss
  set B1 := (orthPoly α β (m + 1)).eval 1
  set B2 := (prevPoly α β (m + 1)).eval 1
  set Q1 := (orthPoly (fun k => -α k) β (m + 1)).eval 1
  set Q2 := (prevPoly (fun k => -α k) β (m + 1)).eval 1
  have hD : 0 < Q1 * B2 + Q2 * B1 := by positivity
  have hdet : s * Q1 * B2 - -(s * Q2) * B1 = s * (Q1 * B2 + Q2 * B1) := by ring
  have hdet0 : s * Q1 * B2 - -(s * Q2) * B1 ≠ 0 := by
    rw [hdet]; exact mul_ne_zero hs0 hD.ne'
  set a := (-1 * (s * Q1) * B2 - -(s * Q2) * (1 * B1)) / (s * Q1 * B2 - -(s * Q2) * B1) with ha
  set b := (s * Q1 * (1 * B1) - -1 * (s * Q1) * B1) / (s * Q1 * B2 - -(s * Q2) * B1) with hb
  refine ⟨a, b, ?_, ?_, ?_⟩
  · rw [ea, ep, npSolve2, if_neg hdet0]
  · have : b = 2 * Q1 * B1 / (Q1 * B2 + Q2 * B1) := by
      rw [hb, hdet]; field_simp; ring
    rw [this]; positivity
  · have hbv : b = 2 * Q1 * B1 / (Q1 * B2 + Q2 * B1) := by
      rw [hb, hdet]; field_simp; ring
    have hav : a = (Q2 * B1 - Q1 * B2) / (Q1 * B2 + Q2 * B1) := by
      rw [ha, hdet]; field_simp; ring
    have hb0 : 0 < b := by rw [hbv]; positivity
    have r1 : (1 - a) * B1 = b * B2 := by
      rw [hav, hbv]; field_simp; ring
    have l1 : (1 - -a) * Q1 = b * Q2 := by
      rw [hav, hbv]; field_simp; ring
    refine ⟨fun t ht => ?_, fun t ht => ?_, ?_, ?_⟩
    · rw [eval_lastPoly]; exact hr.modified_pos (Or.inr hb0.le) r1 ht
    · rw [← eval_lastPoly_neg, eval_lastPoly]; exact hl.modified_pos (Or.inr hb0.le) l1 ht
    · rw [eval_lastPoly]; simp only [iff_true]
      linear_combination r1
    · have e := eval_lastPoly_neg α β (m + 1) a b 1
      rw [eval_lastPoly] at e
      have z : (1 - -a) * Q1 - b * Q2 = 0 := sub_eq_zero.mpr l1
      simp only [Q1, Q2] at z
      rw [z] at e
      have := (mul_eq_zero.mp e.symm).resolve_left (pow_ne_zero _ (by norm_num))
      simpa using this

end QMat
