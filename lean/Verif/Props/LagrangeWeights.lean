import Verif.Props.LagrangeDup

/-!
# C03: the values of the barycentric weights, and what the constructor refuses
-/

namespace QMat

open LagrangeApproximation

/-- Positive multiples of the barycentric weights. -/
def IsPosBary {m : ℕ} (x w : Fin m → ℝ) : Prop := ∃ c : ℝ, 0 < c ∧ ∀ i, w i = c * (∏ j, wDiffs x i j)⁻¹

/-- The largest absolute value is 1. -/
def MaxAbsOne {m : ℕ} (w : Fin m → ℝ) : Prop := (∀ i, |w i| ≤ 1) ∧ ∃ i, |w i| = 1

theorem maxAbsOne_div {m : ℕ} {w : Fin m → ℝ} (hw : ∀ i, w i ≠ 0) {s : ℝ} (hs : (npMax fun i => |w i|) = .ok s) :
    0 < s ∧ MaxAbsOne fun i => w i / s := by
  obtain ⟨h1, i, hi⟩ := npMax_ok hs
  have hs0 : 0 < s := by rw [← hi]; exact abs_pos.mpr (hw i)
  refine ⟨hs0, fun j => ?_, i, ?_⟩
  · rw [abs_div, abs_of_pos hs0, div_le_one hs0]; exact h1 j
  · rw [abs_div, abs_of_pos hs0, div_eq_one_iff_eq hs0.ne']; exact hi

theorem IsPosBary.ne_zero {m : ℕ} {x w : Fin m → ℝ} (hx : Function.Injective x) (h : IsPosBary x w) (i : Fin m) :
    w i ≠ 0 := by
  obtain ⟨c, hc, hw⟩ := h
  rw [hw]
  exact mul_ne_zero hc.ne' (inv_ne_zero (Finset.prod_ne_zero_iff.mpr fun j _ => wDiffs_ne_zero hx i j))

theorem abs_eq_exp {m : ℕ} {d : Fin m → ℝ} (hd : ∀ j, d j ≠ 0) (s : ℝ) :
    |Real.exp (-∑ j, Real.log |d j| - s) * ∏ j, npSign (d j)| = Real.exp (-∑ j, Real.log |d j| - s) := by
  rw [abs_mul, Real.abs_exp, Finset.abs_prod]
  have : ∀ j, |npSign (d j)| = 1 := fun j => by
    have h := npSign_mul_abs (d j)
    have h2 := congrArg abs h
    rw [abs_mul, abs_abs] at h2
    exact mul_right_cancel₀ (abs_ne_zero.mpr (hd j)) (by rw [h2, one_mul])
  simp [this, -Real.log_abs]

theorem logScale_values {m : ℕ} {x w : Fin m → ℝ} (hx : Function.Injective x) {sr : String}
    (h : logScaleWeights sr x = .ok w) : IsPosBary x w ∧ (sr = "MAX" → MaxAbsOne w) ∧
      (sr = "ZERO" → ∃ k, (∀ i, |x k| ≤ |x i|) ∧ (∀ i, |x i| ≤ |x k| → k ≤ i) ∧ |w k| = 1) := by
  have hpos : ∀ s : ℝ, IsPosBary x fun i => Real.exp (-∑ j, Real.log |wDiffs x i j| - s) *
      ∏ j, npSign (wDiffs x i j) := fun s => by
    refine ⟨Real.exp (-s), Real.exp_pos _, fun i => ?_⟩
    beta_reduce
    rw [← exp_neg_sum_log_mul_sign (wDiffs_ne_zero hx i), sub_eq_add_neg, Real.exp_add]
    ring
  simp only [logScaleWeights, bind, Except.bind, pure, Except.pure] at h
  split_ifs at h with h1 h2
  · split at h
    · simp at h
    rename_i k hk
    rw [← Except.ok.inj h]
    refine ⟨hpos _, fun e => by rw [h1] at e; exact absurd e (by decide), fun _ => ⟨k, ?_⟩⟩
    unfold npArgmin at hk
    split_ifs at hk with hm
    have hk := (Except.ok.inj hk).symm
    have hmem := Finset.min'_mem (Finset.univ.filter fun i => ∀ j, |x i| ≤ |x j|) (by
      have : Nonempty (Fin m) := ⟨⟨0, hm⟩⟩
      obtain ⟨i, hi⟩ := Finite.exists_min fun i => |x i|
      exact ⟨i, by simpa using hi⟩)
    rw [← hk] at hmem
    have hmin := (Finset.mem_filter.mp hmem).2
    refine ⟨hmin, fun i hi => ?_, ?_⟩
    · rw [hk]
      exact Finset.min'_le _ _ (Finset.mem_filter.mpr ⟨Finset.mem_univ i, fun j => hi.trans (hmin j)⟩)
    · rw [abs_eq_exp (wDiffs_ne_zero hx k), sub_self, Real.exp_zero]
  · split at h
    · simp at h
    rename_i s hs
    rw [← Except.ok.inj h]
    obtain ⟨hle, i, hi⟩ := npMax_ok hs
    refine ⟨hpos _, fun _ => ⟨fun j => ?_, i, ?_⟩, fun e => absurd e h1⟩
    · rw [abs_eq_exp (wDiffs_ne_zero hx j), Real.exp_le_one_iff]
      linarith [hle j]
    · rw [abs_eq_exp (wDiffs_ne_zero hx i), hi, sub_self, Real.exp_zero]

theorem chebfun_values {m : ℕ} {x w : Fin m → ℝ} (hx : Function.Injective x) (hm : 2 ≤ m)
    (h : chebfunWeights x = .ok w) : IsPosBary x w ∧ MaxAbsOne w := by
  simp only [chebfunWeights, bind, Except.bind, pure, Except.pure] at h
  split at h
  · simp at h
  rename_i xMax hMax
  split at h
  · simp at h
  rename_i xMin hMin
  split at h
  · simp at h
  rename_i nrm hnrm
  rw [← Except.ok.inj h]
  obtain ⟨hMax1, -⟩ := npMax_ok hMax
  obtain ⟨hMin1, -⟩ := npMin_ok hMin
  have hlt : xMin < xMax := by
    have a := hMax1 ⟨0, by omega⟩
    have b := hMin1 ⟨0, by omega⟩
    have c := hMax1 ⟨1, by omega⟩
    have d := hMin1 ⟨1, by omega⟩
    rcases lt_trichotomy (x ⟨0, by omega⟩) (x ⟨1, by omega⟩) with h | h | h
    · linarith
    · have := hx h
      simp at this
    · linarith
  set s := 4 / (xMax - xMin) with hs
  have hs0 : 0 < s := div_pos (by norm_num) (by linarith)
  have hb : IsPosBary x (fun i => ((∏ j, npSign (wDiffs x i j * s)) *
      Real.exp (∑ j, Real.log |wDiffs x i j * s|))⁻¹) := by
    refine ⟨(s ^ m)⁻¹, by positivity, fun i => ?_⟩
    beta_reduce
    rw [exp_sum_log_mul_sign fun j => mul_ne_zero (wDiffs_ne_zero hx i j) hs0.ne',
      Finset.prod_mul_distrib]
    simp [mul_comm]
  obtain ⟨hn0, hn1⟩ := maxAbsOne_div (hb.ne_zero hx) hnrm
  obtain ⟨c, hc, hw⟩ := hb
  exact ⟨⟨c / nrm, div_pos hc hn0, fun i => by simp only [hw]; ring⟩, hn1⟩

theorem prod_wDiffs_ne {m : ℕ} {x : Fin m → ℝ} (hx : Function.Injective x) : ¬ ∃ i, ∏ j, wDiffs x i j = 0 := by
  rintro ⟨i, hi⟩
  exact Finset.prod_ne_zero_iff.mpr (fun j _ => wDiffs_ne_zero hx i j) hi

theorem computeWeights_values {m : ℕ} {x w : Fin m → ℝ} (hx : Function.Injective x) {wc sr : String}
    (hcheb : wc = "CHEBFUN" → 2 ≤ m) (h : computeWeights wc sr x = .ok w) : IsPosBary x w ∧
      (wc = "AUTO" ∨ wc = "FAST" → ∀ i, w i = (∏ j, wDiffs x i j)⁻¹) ∧
      (wc = "CHEBFUN" ∨ wc = "STABLE" ∧ sr = "MAX" → MaxAbsOne w) ∧
      (wc = "STABLE" ∧ sr = "ZERO" →
        ∃ k, (∀ i, |x k| ≤ |x i|) ∧ (∀ i, |x i| ≤ |x k| → k ≤ i) ∧ |w k| = 1) := by
  have hana : IsPosBary x (analyticWeights x) := ⟨1, one_pos, fun i => by rw [one_mul]; rfl⟩
  unfold computeWeights at h
  rw [if_neg (prod_wDiffs_ne hx)] at h
  split_ifs at h with h1 h2 h3 h4
  · rw [← Except.ok.inj h]
    subst h1
    exact ⟨hana, fun _ i => rfl, by simp, by simp⟩
  · rw [← Except.ok.inj h]
    subst h2
    exact ⟨hana, fun _ i => rfl, by simp, by simp⟩
  · subst h3
    obtain ⟨a, b, c⟩ := logScale_values hx h
    exact ⟨a, by simp, by simpa using b, by simpa using c⟩
  · subst h4
    obtain ⟨a, b⟩ := chebfun_values hx (hcheb rfl) h
    exact ⟨a, by simp, fun _ => b, by simp⟩

theorem scaleW_values {m : ℕ} {x w w' : Fin m → ℝ} (hx : Function.Injective x) (hw : IsPosBary x w) {b : Bool}
    (h : scaleW b w = .ok w') : IsPosBary x w' ∧ (b = true → MaxAbsOne w') ∧ (b = false → w' = w) ∧
      (MaxAbsOne w → MaxAbsOne w') := by
  unfold scaleW at h
  cases b
  · simp only [Bool.false_eq_true, if_false] at h
    rw [← Except.ok.inj h]
    exact ⟨hw, by simp, fun _ => rfl, id⟩
  · simp only [if_true, bind, Except.bind, pure, Except.pure] at h
    split at h
    · simp at h
    rename_i s hs
    rw [← Except.ok.inj h]
    obtain ⟨hn0, hn1⟩ := maxAbsOne_div (hw.ne_zero hx) hs
    obtain ⟨c, hc, hw'⟩ := hw
    exact ⟨⟨c / s, div_pos hc hn0, fun i => by simp only [hw']; ring⟩, fun _ => hn1, by simp, fun _ => hn1⟩

theorem prod_wDiffs_erase {m : ℕ} (x : Fin m → ℝ) (i : Fin m) :
    ∏ j, wDiffs x i j = ∏ j ∈ Finset.univ.erase i, (x i - x j) := by
  rw [← Finset.mul_prod_erase _ _ (Finset.mem_univ i)]
  have : wDiffs x i i = 1 := if_pos rfl
  rw [this, one_mul]
  exact Finset.prod_congr rfl fun j hj => if_neg (Finset.ne_of_mem_erase hj).symm

/-- C03, values: the weights are a positive multiple of `1 / ∏_{j≠i} (x_i - x_j)`, exactly these numbers for `AUTO` and
`FAST` without scaling; the largest absolute value is 1 for `CHEBFUN`, for `STABLE` with `scaleRef="MAX"`, and whenever
`scaleWeights` is set; for `STABLE` with `scaleRef="ZERO"` and no scaling the weight of the point closest to zero (the
first one if there are two) is `1` or `-1`. -/
theorem C03_weight_values {n : ℕ} (points : Fin n → ℝ) (hinc : StrictMono points) (wc : String) (sw : Bool)
    (sr dupl : String) (fv) (hcheb : wc = "CHEBFUN" → 2 ≤ n) (L : LagrangeApproximation n)
    (hL : LagrangeApproximation.new points wc sw sr dupl fv = .ok L) :
    ∃ h : L.nUniquePoints = n,
      (∃ c : ℝ, 0 < c ∧ ∀ i, L.weights (Fin.cast h.symm i) =
        c * (∏ j ∈ Finset.univ.erase i, (points i - points j))⁻¹) ∧
      ((wc = "AUTO" ∨ wc = "FAST") ∧ sw = false → ∀ i, L.weights (Fin.cast h.symm i) =
        (∏ j ∈ Finset.univ.erase i, (points i - points j))⁻¹) ∧
      (sw = true ∨ wc = "CHEBFUN" ∨ wc = "STABLE" ∧ sr = "MAX" →
        (∀ i, |L.weights (Fin.cast h.symm i)| ≤ 1) ∧ ∃ i, |L.weights (Fin.cast h.symm i)| = 1) ∧
      (wc = "STABLE" ∧ sr = "ZERO" ∧ sw = false → ∃ k, (∀ i, |points k| ≤ |points i|) ∧
        (∀ i, |points i| ≤ |points k| → k ≤ i) ∧ |L.weights (Fin.cast h.symm k)| = 1) := by
  have hn : npUniqueSize points = n := (npUniqueSize_eq_iff points).mpr hinc.injective
  have hu : ∀ i, npUnique points i = points (Fin.cast hn i) := fun i => by
    have := npUnique_eq_of_strictMono hinc hn (Fin.cast hn i)
    simpa using this
  have hx := (npUnique_strictMono points).injective
  have hprod : ∀ i, (∏ j, wDiffs (npUnique points) (Fin.cast hn.symm i) j) =
      ∏ j ∈ Finset.univ.erase i, (points i - points j) := fun i => by
    rw [← prod_wDiffs_erase]
    refine Fintype.prod_equiv (finCongr hn) _ _ fun j => ?_
    unfold wDiffs
    simp only [hu, finCongr_apply, Fin.cast_cast, Fin.cast_eq_self]
    by_cases e : Fin.cast hn.symm i = j
    · rw [if_pos e, if_pos (by rw [← e]; simp)]
    · rw [if_neg e, if_neg (fun e' => e (by rw [e']; simp))]
  unfold LagrangeApproximation.new at hL
  simp only [bind, Except.bind, pure, Except.pure, hn, dite_true] at hL
  split at hL
  · simp at hL
  rename_i w hw
  split at hL
  · simp at hL
  rename_i w' hw'
  split at hL
  · simp at hL
  have hL := (Except.ok.inj hL).symm
  subst hL
  obtain ⟨a1, a2, a3, a4⟩ := computeWeights_values hx (fun e => by rw [hn]; exact hcheb e) hw
  obtain ⟨b1, b2, b3, b4⟩ := scaleW_values hx a1 hw'
  refine ⟨rfl, ?_, ?_, ?_, ?_⟩
  · obtain ⟨c, hc, h⟩ := b1
    exact ⟨c, hc, fun i => by rw [← hprod]; exact h _⟩
  · rintro ⟨h1, h2⟩ i
    rw [← hprod, ← a2 h1, ← b3 h2]
    rfl
  · intro h
    have : MaxAbsOne w' := by
      rcases h with h | h
      · exact b2 h
      · exact b4 (a3 h)
    obtain ⟨m1, i, m2⟩ := this
    exact ⟨fun i => m1 _, Fin.cast hn i, m2⟩
  · rintro ⟨h1, h2, h3⟩
    obtain ⟨k, k1, k2, k3⟩ := a4 ⟨h1, h2⟩
    refine ⟨Fin.cast hn k, fun i => ?_, fun i hi => ?_, ?_⟩
    · have := k1 (Fin.cast hn.symm i)
      rw [hu, hu] at this
      simpa using this
    · have := k2 (Fin.cast hn.symm i) (by rw [hu, hu]; simpa using hi)
      exact this
    · rw [b3 h3]
      exact k3

/-- C03, errors, in the order of the code: an unknown strategy for duplicates is an error only if there are duplicates,
an unknown reference for the scaling only for `STABLE`; then an unknown weight computation, then stored values of another
size; nothing else is refused. -/
theorem C03_constructor_errors {n : ℕ} (hn : 0 < n) (points : Fin n → ℝ) (wc : String) (sw : Bool) (sr dupl : String)
    (fv : Option (Σ k, Fin k → ℝ)) :
    (¬ ((wc = "AUTO" ∨ wc = "FAST" ∨ wc = "STABLE" ∨ wc = "CHEBFUN") ∧ (wc = "STABLE" → sr = "MAX" ∨ sr = "ZERO") ∧
        (¬ Function.Injective points → dupl = "USE_LEFT" ∨ dupl = "USE_RIGHT")) →
      LagrangeApproximation.new points wc sw sr dupl fv = .error .notImplementedError) ∧
    ((wc = "AUTO" ∨ wc = "FAST" ∨ wc = "STABLE" ∨ wc = "CHEBFUN") → (wc = "STABLE" → sr = "MAX" ∨ sr = "ZERO") →
      (¬ Function.Injective points → dupl = "USE_LEFT" ∨ dupl = "USE_RIGHT") →
      ((∀ k f, fv = some ⟨k, f⟩ → k = n) → ∃ L, LagrangeApproximation.new points wc sw sr dupl fv = .ok L) ∧
      ((∃ k f, fv = some ⟨k, f⟩ ∧ k ≠ n) →
        LagrangeApproximation.new points wc sw sr dupl fv = .error .valueError)) := by
  have hm := npUniqueSize_pos points hn
  have hne := prod_wDiffs_ne (npUnique_strictMono points).injective
  have hinj := npUniqueSize_eq_iff points
  have hscale : ∀ w : Fin (npUniqueSize points) → ℝ, ∃ w', scaleW sw w = .ok w' := fun w => by
    unfold scaleW
    cases sw
    · simp
    · obtain ⟨s, hs⟩ := npMax_eq_ok hm fun i => |w i|
      simp [bind, Except.bind, pure, Except.pure, hs]
  have hweights : (wc = "AUTO" ∨ wc = "FAST" ∨ wc = "STABLE" ∨ wc = "CHEBFUN") →
      (wc = "STABLE" → sr = "MAX" ∨ sr = "ZERO") → ∃ w, computeWeights wc sr (npUnique points) = .ok w := by
    intro h1 h2
    unfold computeWeights
    rw [if_neg hne]
    rcases h1 with rfl | rfl | rfl | rfl
    · simp
    · simp
    · simpa using logScaleWeights_total hm (h2 rfl) _
    · simpa using chebfunWeights_total hm _
  have hbad : ¬ ((wc = "AUTO" ∨ wc = "FAST" ∨ wc = "STABLE" ∨ wc = "CHEBFUN") ∧
      (wc = "STABLE" → sr = "MAX" ∨ sr = "ZERO")) →
      computeWeights wc sr (npUnique points) = .error .notImplementedError := by
    intro h
    unfold computeWeights
    rw [if_neg hne]
    split_ifs with h1 h2 h3 h4
    · exact absurd ⟨Or.inl h1, fun e => by rw [h1] at e; exact absurd e (by decide)⟩ h
    · exact absurd ⟨Or.inr (Or.inl h2), fun e => by rw [h2] at e; exact absurd e (by decide)⟩ h
    · have hsr : ¬ (sr = "MAX" ∨ sr = "ZERO") := fun e => h ⟨Or.inr (Or.inr (Or.inl h3)), fun _ => e⟩
      unfold logScaleWeights
      rw [if_neg (fun e => hsr (Or.inr e)), if_neg (fun e => hsr (Or.inl e))]
      rfl
    · exact absurd ⟨Or.inr (Or.inr (Or.inr h4)), fun e => by rw [h4] at e; exact absurd e (by decide)⟩ h
    · rfl
  constructor
  · intro h
    unfold LagrangeApproximation.new
    simp only [bind, Except.bind, pure, Except.pure]
    by_cases hw : (wc = "AUTO" ∨ wc = "FAST" ∨ wc = "STABLE" ∨ wc = "CHEBFUN") ∧
      (wc = "STABLE" → sr = "MAX" ∨ sr = "ZERO")
    · have hd : ¬ (¬ Function.Injective points → dupl = "USE_LEFT" ∨ dupl = "USE_RIGHT") :=
        fun e => h ⟨hw.1, hw.2, e⟩
      push Not at hd
      rw [dif_neg (fun e => hd.1 (hinj.mp e)), if_neg hd.2.1, if_neg hd.2.2]
      rfl
    · rw [hbad hw]
      split_ifs <;> rfl
  · intro h1 h2 h3
    obtain ⟨w, hw⟩ := hweights h1 h2
    obtain ⟨w', hw'⟩ := hscale w
    constructor
    · intro hfv
      have hf : ∃ f, checkFValues (n := n) fv = .ok f := by
        unfold checkFValues
        match fv with
        | none => exact ⟨_, rfl⟩
        | some ⟨k, f⟩ => simp only [dif_pos (hfv k f rfl)]; exact ⟨_, rfl⟩
      obtain ⟨f, hf⟩ := hf
      unfold LagrangeApproximation.new
      simp only [bind, Except.bind, pure, Except.pure, hw, hw', hf]
      split_ifs with e1 e2 e3
      · exact ⟨_, rfl⟩
      · exact ⟨_, rfl⟩
      · exact ⟨_, rfl⟩
      · rcases h3 (fun e => e1 (hinj.mpr e)) with e | e
        · exact absurd e e2
        · exact absurd e e3
    · rintro ⟨k, f, rfl, hk⟩
      have hf : checkFValues (n := n) (some ⟨k, f⟩) = .error .valueError := by
        simp only [checkFValues, dif_neg hk]
      unfold LagrangeApproximation.new
      simp only [bind, Except.bind, pure, Except.pure, hw, hw', hf]
      split_ifs with e1 e2 e3
      · rfl
      · rfl
      · rfl
      · rcases h3 (fun e => e1 (hinj.mpr e)) with e | e
        · exact absurd e e2
        · exact absurd e e3

/-- Three points with scaled weights: the hypotheses are met, and the largest weight is 1. -/
example : ∃ L, LagrangeApproximation.new ![(0:ℝ), 1/2, 1] "FAST" true = .ok L ∧
    ∃ h : L.nUniquePoints = 3, ∃ i, |L.weights (Fin.cast h.symm i)| = 1 := by
  obtain ⟨L, hL⟩ := ((C03_constructor_errors (by norm_num) ![(0:ℝ), 1/2, 1] "FAST" true "MAX" "USE_LEFT" none).2
    (by simp) (by simp) (by simp)).1 (by simp)
  obtain ⟨h, -, -, h3, -⟩ := C03_weight_values _ strictMono_ex _ _ _ _ _ (by simp) L hL
  exact ⟨L, hL, h, (h3 (Or.inl rfl)).2⟩

/-- Misspelt options are refused. -/
example : LagrangeApproximation.new ![(0:ℝ), 1/2] "fast" = .error .notImplementedError :=
  (C03_constructor_errors (by norm_num) _ _ _ _ _ _).1 (by simp)

end QMat
