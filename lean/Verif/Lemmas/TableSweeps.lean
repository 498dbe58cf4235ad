import Verif.Lemmas.HalfPlaneCert
import Verif.Lemmas.MinCertNodes
import Verif.Props.SDCSweeps

/-!
# Sweeps with a diagonal matrix in the left half-plane
-/

namespace QMat

open Matrix Spec MinCert HalfPlane

attribute [local instance] Matrix.linftyOpNormedAddCommGroup Matrix.linftyOpNormedRing Matrix.linftyOpNormedSpace
  Matrix.linftyOpNormedAlgebra

variable {M : ℕ}

/-- Eigenvalues of modulus at least one of a sweep with a diagonal matrix: `σ / z` is an eigenvalue of
`D - ν D S` for the stiff limit `S` and `|ν| ≤ 1`. -/
theorem sweep_contracts {d D : Fin M → ℝ} {Q : Matrix (Fin M) (Fin M) ℝ} {σ : ℝ} (hσ : 0 < σ) (hd : ∀ i, 0 ≤ d i)
    (hD : ∀ i, d i ≠ 0 → D i = σ * d i) (h0 : ∀ i, d i = 0 → ∀ j, Q i j = 0) {onReal : Bool}
    (h : ∀ W ν : ℂ, InRegion onReal W → ‖ν‖ ≤ 1 → ∀ v : Fin M → ℂ,
      W • v = cmat (diagonal D) *ᵥ v - ν • (cmat (diagonal D * stiffLimit d Q) *ᵥ v) → v = 0)
    {z : ℂ} (hz : InRegion onReal z) : SweepsContract z Q (diagonal d) := by
  by_cases hz0 : z = 0
  · subst hz0
    refine ⟨by simp, fun μ hμ => ?_⟩
    obtain ⟨v, hv, he⟩ := eigen_of_mem hμ
    have : sweepMatrix 0 Q (diagonal d) = 0 := by simp [sweepMatrix]
    rw [this, zero_mulVec] at he
    rcases smul_eq_zero.mp he.symm with h | h
    · simp [h]
    · exact absurd h hv
  · have hn : 0 < Complex.normSq z := Complex.normSq_pos.mpr hz0
    have hre : (z⁻¹).re ≤ 0 := by
      rw [Complex.inv_re]; exact div_nonpos_of_nonpos_of_nonneg hz.1 hn.le
    have hne : ∀ i, (d i : ℂ) ≠ z⁻¹ := by
      intro i hi
      have h1 := congrArg Complex.re hi
      rw [Complex.ofReal_re] at h1
      have h2 : d i = 0 := le_antisymm (h1 ▸ hre) (hd i)
      rw [h2, Complex.ofReal_zero] at hi
      exact inv_ne_zero hz0 hi.symm
    obtain ⟨hdet, he⟩ := sweepMatrix_diagonal h0 hz0 hne
    refine ⟨hdet, fun μ hμ => ?_⟩
    by_contra hlt
    push Not at hlt
    have hμ0 : μ ≠ 0 := fun h => by rw [h, norm_zero] at hlt; linarith
    rw [he] at hμ
    obtain ⟨v, hv, hev⟩ := eigen_of_mem hμ
    refine hv (h (σ * z⁻¹) μ⁻¹ ⟨?_, ?_⟩ ?_ v ?_)
    · rw [Complex.re_ofReal_mul]; exact mul_nonpos_of_nonneg_of_nonpos hσ.le hre
    · intro hr
      rw [Complex.im_ofReal_mul, Complex.inv_im, hz.2 hr]
      simp
    · rw [norm_inv]; exact inv_le_one_of_one_le₀ hlt
    · funext i
      have h1 := congrFun hev i
      have e1 : (cmat (diagonal D) *ᵥ v) i = D i * v i := by
        have : cmat (diagonal D) = diagonal fun i => (D i : ℂ) := by
          ext i j
          by_cases hij : i = j
          · subst hij; simp [cmat]
          · simp [cmat, hij]
        rw [this, mulVec_diagonal]
      have e2 : (cmat (diagonal D * stiffLimit d Q) *ᵥ v) i = D i * ∑ j, (stiffLimit d Q i j : ℂ) * v j := by
        rw [mulVec, dotProduct, Finset.mul_sum]
        refine Finset.sum_congr rfl fun j _ => ?_
        have : cmat (diagonal D * stiffLimit d Q) i j = D i * stiffLimit d Q i j := by
          simp only [cmat, map_apply]
          rw [diagonal_mul]
          push_cast
          rfl
        rw [this, mul_assoc]
      rw [Pi.smul_apply, Pi.sub_apply, Pi.smul_apply, e1, e2, smul_eq_mul, smul_eq_mul]
      rw [mulVec, dotProduct, Pi.smul_apply, smul_eq_mul] at h1
      by_cases hdi : d i = 0
      · have hv0 : v i = 0 := by
          have : ∑ j, stiffSweep d Q z⁻¹ i j * v j = 0 :=
            Finset.sum_eq_zero fun j _ => by simp [stiffSweep, hdi]
          rw [this] at h1
          exact (mul_eq_zero.mp h1.symm).resolve_left hμ0
        have hs0 : ∑ j, (stiffLimit d Q i j : ℂ) * v j = 0 :=
          Finset.sum_eq_zero fun j _ => by simp [stiffLimit, hdi]
        rw [hv0, hs0]
        ring
      · have hdc : (d i : ℂ) ≠ 0 := by exact_mod_cast hdi
        have hdw : (d i : ℂ) - z⁻¹ ≠ 0 := sub_ne_zero.mpr (hne i)
        have e3 : ∑ j, stiffSweep d Q z⁻¹ i j * v j = d i / (d i - z⁻¹) * ∑ j, (stiffLimit d Q i j : ℂ) * v j := by
          rw [Finset.mul_sum]
          refine Finset.sum_congr rfl fun j _ => ?_
          have a1 : stiffSweep d Q z⁻¹ i j = ((diagonal d i j - Q i j : ℝ) : ℂ) / (d i - z⁻¹) := by
            simp [stiffSweep, hdi]
          have a2 : stiffLimit d Q i j = (diagonal d i j - Q i j) / d i := by
            simp [stiffLimit, hdi]
          rw [a1, a2]
          push_cast
          field_simp
        rw [e3] at h1
        set s := ∑ j, (stiffLimit d Q i j : ℂ) * v j
        rw [hD i hdi]
        push_cast
        have h2 : (d i : ℂ) * s = μ * v i * (d i - z⁻¹) := by
          rw [← h1, div_mul_eq_mul_div, div_mul_cancel₀ _ hdw]
        have h3 : μ⁻¹ * (d i * s) = v i * (d i - z⁻¹) := by
          rw [h2, mul_assoc μ, inv_mul_cancel_left₀ hμ0]
        linear_combination (σ : ℂ) * h3

/-! ## Entries of the tables -/

namespace HalfPlane

/-- A common denominator. -/
def sigma (cs : List ℚ) : ℤ := 10 ^ 42 * (cs.foldl (fun n d => Nat.lcm n d.den) 1 : ℕ)

/-- The diagonal in units of `1 / sigma`, with one instead of zero. -/
def entryDiag (cs : List ℚ) : List ℤ :=
  let σ := sigma cs
  cs.map fun d => if d = 0 then σ else (d * (σ : ℚ)).num

def entryE (e : Entry) (cs : List ℚ) : List (List ℤ) :=
  let ds := entryDiag cs
  let X := e.limit cs
  (List.range e.size).map fun i => (List.range e.size).map fun j =>
    ds.getD i 0 * e.bound.num * (X.getD i []).getD j 0 / (scale * e.bound.den)

def minimum : List ℤ → ℤ → ℤ
  | [], m => m
  | d :: l, m => minimum l (min d m)

/-- The data of one check: half-line or half-plane, steps of Graeffe's method, bound of the inverse of the roots. -/
def sweepsOk (t : MinCoeffs.Table) (e : Entry) (onReal : Bool) (K : ℕ) (r : ℚ) : Bool :=
  match tableLookup t e.nodeType e.quadType e.size with
  | .error _ => false
  | .ok cs =>
    let ds := entryDiag cs
    decide (cs.length = e.size ∧ 0 < sigma cs ∧ (∀ d ∈ cs, 0 ≤ d ∧ (d * sigma cs).den = 1) ∧
      ∀ d ∈ ds, 0 ≤ d ∧ d * e.bound * e.err / scale + e.size ≤ (e.size + 1 : ℕ)) &&
    halfOk onReal e.size ds (entryE e cs) (e.size + 1) (minimum ds (sigma cs)) K 11 10 r
      (2 ^ (212 * e.size + 60)) (2 ^ ((214 * e.size + 60) * 2 ^ K)) (2 ^ ((214 * e.size + 60) * 2 ^ K * 2 + 20 * e.size + 60))

theorem entry_contracts {t : MinCoeffs.Table} {e : Entry} (hok : entryOk t e = true) {cs : List ℚ}
    (hcs : tableLookup t e.nodeType e.quadType e.size = .ok cs) (c : Collocation e.size)
    (hc : Collocation.new e.size e.nodeType e.quadType 0 1 = .ok c) {onReal : Bool} {K : ℕ} {r : ℚ}
    (h : sweepsOk t e onReal K r = true)
    (h0 : ∀ i : Fin e.size, ((cs.getD i 0 : ℚ) : ℝ) = 0 → ∀ j, c.Q i j = 0) {z : ℂ} (hz : InRegion onReal z) :
    SweepsContract z c.Q (diagonal fun i : Fin e.size => ((cs.getD i 0 : ℚ) : ℝ)) := by
  have hb : 0 < e.bound := by
    simp only [entryOk, Bool.and_eq_true, decide_eq_true_eq] at hok
    exact hok.1.1.1
  have hlim := (entryOk_sound hok hcs c hc).1
  rw [sweepsOk, hcs] at h
  simp only [Bool.and_eq_true, decide_eq_true_eq] at h
  obtain ⟨⟨hl, hσ0, hcs0, hds⟩, hhalf⟩ := h
  have hσ : (0:ℝ) < (sigma cs : ℤ) := by exact_mod_cast hσ0
  have hsc : (0:ℝ) < (scale : ℤ) := by norm_num [scale]
  have hbR : (0:ℝ) < e.bound := by exact_mod_cast hb
  have hmem : ∀ i : Fin e.size, cs.getD i 0 ∈ cs := fun i => by
    have hi : (i:ℕ) < cs.length := by rw [hl]; exact i.2
    rw [List.getD_eq_getElem?_getD, List.getElem?_eq_getElem hi]
    exact List.getElem_mem hi
  have hdi : ∀ i : Fin e.size, (entryDiag cs).getD i 0 = if cs.getD i 0 = 0 then sigma cs else (cs.getD i 0 * sigma cs).num :=
    fun i => by rw [entryDiag, getD_map (by rw [hl]; exact i.2) 0]
  have hdm : ∀ i : Fin e.size, (entryDiag cs).getD i 0 ∈ entryDiag cs := fun i => by
    have hi : (i:ℕ) < (entryDiag cs).length := by rw [entryDiag, List.length_map, hl]; exact i.2
    rw [List.getD_eq_getElem?_getD, List.getElem?_eq_getElem hi]
    exact List.getElem_mem hi
  refine sweep_contracts (D := fun i => (((entryDiag cs).getD i 0 : ℤ) : ℝ)) hσ
    (fun i => by exact_mod_cast (hcs0 _ (hmem i)).1) (fun i hi => ?_) h0 (fun W ν hW hν v hv => ?_) hz
  · have hi' : cs.getD i 0 ≠ 0 := fun h => hi (by rw [h]; simp)
    rw [hdi, if_neg hi']
    have := Rat.num_div_den (cs.getD i 0 * sigma cs)
    rw [(hcs0 _ (hmem i)).2] at this
    have h2 : (((cs.getD i 0 * sigma cs).num : ℚ)) = cs.getD i 0 * sigma cs := by
      rw [← this]; simp
    have h3 : ((((cs.getD i 0 * sigma cs).num : ℚ)) : ℝ) = ((cs.getD i 0 * sigma cs : ℚ) : ℝ) := by rw [h2]
    push_cast at h3
    rw [h3]
    ring
  · refine halfOk_sound hhalf ?_ hW hν hv
    have hεR : (((e.size : ℤ) + 1 : ℤ) : ℝ) = (e.size : ℝ) + 1 := by push_cast; ring
    rw [hεR]
    refine norm_le_of_rows (by positivity) fun i => ?_
    set S := stiffLimit (fun i : Fin e.size => ((cs.getD i 0 : ℚ) : ℝ)) c.Q with hS
    set D : ℝ := (((entryDiag cs).getD i 0 : ℤ) : ℝ) with hD
    have hD0 : 0 ≤ D := by rw [hD]; exact_mod_cast (hds _ (hdm i)).1
    have hrow : ∑ j, |((e.bound:ℝ)⁻¹ • S - (scale:ℝ)⁻¹ • mat e.size (e.limit cs)) i j| ≤ e.err / scale := by
      refine le_trans ?_ hlim
      rw [linfty_opNorm_def]
      have := Finset.le_sup (f := fun i => ∑ j, ‖((e.bound:ℝ)⁻¹ • S - (scale:ℝ)⁻¹ • mat e.size (e.limit cs)) i j‖₊)
        (Finset.mem_univ i)
      have h2 := NNReal.coe_le_coe.mpr this
      push_cast at h2
      simpa using h2
    have hterm : ∀ j, |((diagonal fun i : Fin e.size => (((entryDiag cs).getD i 0 : ℤ) : ℝ)) * S -
        mat e.size (entryE e cs)) i j| ≤
        D * e.bound * |((e.bound:ℝ)⁻¹ • S - (scale:ℝ)⁻¹ • mat e.size (e.limit cs)) i j| + 1 := by
      intro j
      set x := ((e.limit cs).getD i []).getD j 0 with hx
      have e1 : ((entryE e cs).getD i []).getD j 0 =
          (entryDiag cs).getD i 0 * e.bound.num * x / (scale * e.bound.den) := by
        rw [entryE, getD_map (by simp) 0, getD_map (by simp) 0]
        simp [hx]
      rw [Matrix.sub_apply, diagonal_mul, Matrix.sub_apply, Matrix.smul_apply, Matrix.smul_apply]
      simp only [mat, of_apply, smul_eq_mul]
      rw [e1, ← hD]
      have hden : (0:ℤ) < scale * e.bound.den := mul_pos (by norm_num [scale]) (by exact_mod_cast e.bound.den_pos)
      have hdenR : (0:ℝ) < (scale * e.bound.den : ℤ) := by exact_mod_cast hden
      set a := (entryDiag cs).getD i 0 * e.bound.num * x with ha
      have h1 : scale * e.bound.den * (a / (scale * e.bound.den)) ≤ a := Int.mul_ediv_self_le hden.ne'
      have h2 : a < scale * e.bound.den * (a / (scale * e.bound.den)) + scale * e.bound.den :=
        Int.lt_mul_ediv_self_add hden
      have h1' : ((scale * e.bound.den : ℤ) : ℝ) * ((a / (scale * e.bound.den) : ℤ) : ℝ) ≤ a := by exact_mod_cast h1
      have h2' : (a:ℝ) < ((scale * e.bound.den : ℤ) : ℝ) * ((a / (scale * e.bound.den) : ℤ) : ℝ) +
        ((scale * e.bound.den : ℤ) : ℝ) := by exact_mod_cast h2
      set y : ℝ := ((a / (scale * e.bound.den) : ℤ) : ℝ)
      have ha' : (a:ℝ) = D * e.bound * ((scale:ℝ)⁻¹ * x) * ((scale * e.bound.den : ℤ) : ℝ) := by
        have : (e.bound : ℝ) = (e.bound.num : ℝ) / (e.bound.den : ℝ) := by exact_mod_cast (Rat.num_div_den e.bound).symm
        have hd0 : (e.bound.den : ℝ) ≠ 0 := by exact_mod_cast e.bound.den_nz
        rw [ha, this, hD]
        push_cast
        field_simp
      have hy : |D * e.bound * ((scale:ℝ)⁻¹ * x) - y| ≤ 1 := by
        rw [ha'] at h1' h2'
        rw [abs_le]
        constructor
        · have : y * ((scale * e.bound.den : ℤ) : ℝ) ≤
              (D * e.bound * ((scale:ℝ)⁻¹ * x) + 1) * ((scale * e.bound.den : ℤ) : ℝ) := by linarith
          linarith [le_of_mul_le_mul_right this hdenR]
        · have : D * e.bound * ((scale:ℝ)⁻¹ * x) * ((scale * e.bound.den : ℤ) : ℝ) ≤
              (y + 1) * ((scale * e.bound.den : ℤ) : ℝ) := by linarith
          linarith [le_of_mul_le_mul_right this hdenR]
      have e2 : D * S i j - y = D * e.bound * ((e.bound:ℝ)⁻¹ * S i j - (scale:ℝ)⁻¹ * x) +
          (D * e.bound * ((scale:ℝ)⁻¹ * x) - y) := by
        field_simp
        ring
      rw [e2]
      refine (abs_add_le _ _).trans (add_le_add ?_ hy)
      rw [abs_mul, abs_of_nonneg (mul_nonneg hD0 hbR.le)]
    calc _ ≤ ∑ j, (D * e.bound * |((e.bound:ℝ)⁻¹ • S - (scale:ℝ)⁻¹ • mat e.size (e.limit cs)) i j| + 1) :=
          Finset.sum_le_sum fun j _ => hterm j
      _ = D * e.bound * (∑ j, |((e.bound:ℝ)⁻¹ • S - (scale:ℝ)⁻¹ • mat e.size (e.limit cs)) i j|) + e.size := by
        rw [Finset.sum_add_distrib, ← Finset.mul_sum]
        simp
      _ ≤ D * e.bound * (e.err / scale) + e.size :=
        add_le_add (mul_le_mul_of_nonneg_left hrow (mul_nonneg hD0 hbR.le)) le_rfl
      _ ≤ _ := by
        have := (hds _ (hdm i)).2
        have h3 : D * e.bound * e.err / scale + e.size ≤ (e.size : ℝ) + 1 := by rw [hD]; exact_mod_cast this
        refine le_trans (le_of_eq ?_) h3
        ring

end HalfPlane

end QMat
