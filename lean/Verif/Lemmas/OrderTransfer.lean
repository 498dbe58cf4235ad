import Verif.Lemmas.GlobalError
import Verif.Spec.ODEOrder

/-!
# From tree conditions to the order on smooth differential equations
-/

namespace QMat.Spec

open Filter Topology Metric Asymptotics RTree

theorem stageWeight_node {s : ℕ} (A : Matrix (Fin s) (Fin s) ℝ) : ∀ (k : ℕ) (v : Fin k → RTree) (i : Fin s),
    stageWeight A (node k v) i = ∏ j, ∑ l, A i l * stageWeight A (v j) l
  | 0, v, i => by simp [node, stageWeight]
  | k + 1, v, i => by
    simp only [node, stageWeight]
    rw [stageWeight_node A k, Fin.prod_univ_castSucc]
    rfl

variable {E : Type*} [NormedAddCommGroup E] [NormedSpace ℝ E]

/-- A bound of the elementary differentials along a compact set. -/
theorem elemDiff_bound {K : Set E} (hK : IsCompact K) {p : ℕ} {f : E → E}
    (hf : ∀ u ∈ K, ContDiffAt ℝ p f u) :
    ∃ B, 0 ≤ B ∧ ∀ u ∈ K, ∑ t ∈ upTo p, ‖elemDiff (taylorP p f u) t‖ ≤ B := by
  have h1 : (fun u : K => ∑ t ∈ upTo p, ‖elemDiff (taylorP p f u) t‖) =O[⊤] (1 : K → ℝ) :=
    bigO_sum fun t _ => (elemDiff_bigO' (P := fun u : K => taylorP p f u)
      (fun k => taylorP_bigO hK hf (y0 := fun u : K => (u : E)) (fun u => u.2) id k) t).norm_left
  obtain ⟨B, hB, H⟩ := h1.exists_nonneg
  have H' := isBigOWith_iff.1 H
  rw [eventually_top] at H'
  refine ⟨B, hB, fun u hu => (le_abs_self _).trans ?_⟩
  simpa using H' ⟨u, hu⟩

variable {ι : Type*} [Fintype ι]

/-- The local error along a solution, with tree conditions that hold up to `ε`. -/
theorem local_full [CompleteSpace E] {A : ι → ι → ℝ} {W : RTree → ι → ℝ} {b : ι → ℝ}
    (hW : ∀ k (v : Fin k → RTree) i, W (node k v) i = ∏ j, ∑ l, A i l * W (v j) l)
    {p : ℕ} (hp : 1 ≤ p) {f : E → E} {y : ℝ → E} {T : ℝ}
    (hy : ∀ s ∈ Set.Icc (0 : ℝ) T, HasDerivWithinAt y (f (y s)) (Set.Icc 0 T) s)
    (hf : ∀ s ∈ Set.Icc (0 : ℝ) T, ContDiffAt ℝ p f (y s)) {B : ℝ}
    (hB : ∀ s ∈ Set.Icc (0 : ℝ) T, ∑ t ∈ upTo p, ‖elemDiff (taylorP p f (y s)) t‖ ≤ B)
    {ε : ℝ} (hb : ∀ t : RTree, t.order ≤ p → |∑ i, b i * W t i - 1 / t.density| ≤ ε) :
    ∃ ρ > 0, ∀ ρ', 0 < ρ' → ρ' ≤ ρ → ∃ h0 > 0, ∃ C, 0 ≤ C ∧
      ∀ t ∈ Set.Icc (0 : ℝ) T, ∀ h ∈ Set.Ico (0 : ℝ) h0, t + h ≤ T →
      (∃ Y, Stages A f (y t) h Y ∧ ∀ i, ‖Y i - y t‖ < ρ') ∧
      (∀ Y Y', Stages A f (y t) h Y → Stages A f (y t) h Y' → (∀ i, ‖Y i - y t‖ < ρ') →
        (∀ i, ‖Y' i - y t‖ < ρ') → Y = Y') ∧
      ∀ Y, Stages A f (y t) h Y → (∀ i, ‖Y i - y t‖ < ρ') →
        ‖y t + h • ∑ i, b i • f (Y i) - y (t + h)‖ ≤ ε * B * h + C * h ^ (p + 1) := by
  set K : Set E := y '' Set.Icc 0 T with hKdef
  have hK : IsCompact K := isCompact_Icc.image_of_continuousOn fun s hs =>
    (hy s hs).continuousWithinAt
  have hfK : ∀ u ∈ K, ContDiffAt ℝ p f u := by
    rintro _ ⟨s, hs, rfl⟩
    exact hf s hs
  obtain ⟨R, hR, M, hM, HM⟩ := tube A b hK fun u hu => (hfK u hu).of_le (by exact_mod_cast hp)
  obtain ⟨r, hr, h1, hh1, C, hC, HL⟩ := local_uniform (X := Set.Icc (0 : ℝ) T)
    (y := fun x s => y (x + s)) (τ := fun x => T - x) b hW hK hfK
    (fun x => sub_nonneg.2 x.2.2)
    (fun x s hs => ⟨x + s, ⟨add_nonneg x.2.1 hs.1, by linarith [hs.2]⟩, rfl⟩)
    (fun x s hs => by
      have h1 := hy (x + s) ⟨add_nonneg x.2.1 hs.1, by linarith [hs.2]⟩
      have h2 : HasDerivWithinAt (fun s : ℝ => (x : ℝ) + s) 1 (Set.Icc 0 (T - x)) s :=
        ((hasDerivAt_id s).const_add (x : ℝ)).hasDerivWithinAt
      have h3 := h1.scomp s h2 (fun q hq => ⟨add_nonneg x.2.1 hq.1, by linarith [hq.2]⟩)
      rw [one_smul] at h3
      exact h3)
  have hm := lt_min hr hR
  refine ⟨min r R / 2, by positivity, fun ρ hρ0 hρle => ?_⟩
  have hρr : ρ < r := by linarith [min_le_left r R]
  have hρR : ρ < R := by linarith [min_le_right r R]
  obtain ⟨h2, hh2, HT⟩ := HM ρ hρ0 hρR
  refine ⟨min (min h1 h2) 1, lt_min (lt_min hh1 hh2) one_pos, C, hC, fun t ht h hh hth => ?_⟩
  have hhh1 : h ∈ Set.Ico (0 : ℝ) h1 :=
    ⟨hh.1, hh.2.trans_le ((min_le_left _ _).trans (min_le_left _ _))⟩
  have hhh2 : h ∈ Set.Ico (0 : ℝ) h2 :=
    ⟨hh.1, hh.2.trans_le ((min_le_left _ _).trans (min_le_right _ _))⟩
  have hle1 : h ≤ 1 := (hh.2.trans_le (min_le_right _ _)).le
  have hyt : y t ∈ K := ⟨t, ht, rfl⟩
  refine ⟨(HT _ hyt h hhh2).1 _ (mem_ball_self hR), ?_, ?_⟩
  · intro Y Y' hY hY' hn hn'
    have := ((HT _ hyt h hhh2).2 _ (mem_ball_self hR) _ (mem_ball_self hR) Y Y' hY hY'
      (fun i => (hn i).trans hρR) fun i => (hn' i).trans hρR).1
    rw [sub_self, norm_zero, mul_zero] at this
    exact sub_eq_zero.1 (norm_le_zero_iff.1 this)
  · intro V hV hVρ
    have h3 := HL ⟨t, ht⟩ h hhh1 (by change h ≤ T - t; linarith) V (by simpa using hV) (fun i => by
      rw [add_zero, mem_ball, dist_eq_norm]
      exact (hVρ i).trans hρr)
    simp only [add_zero] at h3
    have h4 : ‖∑ x ∈ upTo p, (h ^ x.order * (∑ i, b i * W x i - 1 / x.density)) •
        elemDiff (taylorP p f (y t)) x‖ ≤ ε * B * h := by
      have hε : 0 ≤ ε := (abs_nonneg _).trans (hb .leaf (by simpa [order] using hp))
      calc _ ≤ ∑ x ∈ upTo p, h * ε * ‖elemDiff (taylorP p f (y t)) x‖ := by
            refine norm_sum_le_of_le _ fun x hx => ?_
            rw [norm_smul, norm_mul, Real.norm_of_nonneg (pow_nonneg hh.1 _), Real.norm_eq_abs]
            have h5 : h ^ x.order ≤ h := by
              calc h ^ x.order ≤ h ^ 1 := pow_le_pow_of_le_one hh.1 hle1 (one_le_order x)
                _ = h := pow_one h
            have h6 := hb x ((mem_upTo p x).1 hx)
            have := hh.1
            gcongr
        _ = h * ε * ∑ x ∈ upTo p, ‖elemDiff (taylorP p f (y t)) x‖ := by rw [Finset.mul_sum]
        _ ≤ h * ε * B := mul_le_mul_of_nonneg_left (hB t ht) (mul_nonneg hh.1 hε)
        _ = _ := by ring
    have h7 := norm_add_le (y t + h • ∑ i, b i • f (V i) - y (t + h)
      - ∑ x ∈ upTo p, (h ^ x.order * (∑ i, b i * W x i - 1 / x.density)) •
        elemDiff (taylorP p f (y t)) x) (∑ x ∈ upTo p, (h ^ x.order *
          (∑ i, b i * W x i - 1 / x.density)) • elemDiff (taylorP p f (y t)) x)
    rw [sub_add_cancel] at h7
    linarith

/-! ## Time-dependent equations -/

/-- `u' = f(t, u)` as an equation for `(t, u)`. -/
def withTime (f : ℝ → E → E) (q : ℝ × E) : ℝ × E := (1, f q.1 q.2)

omit [NormedSpace ℝ E] in
theorem norm_pair_lt {t t' ρ : ℝ} {u u' : E} :
    ‖((t, u) : ℝ × E) - (t', u')‖ < ρ ↔ |t - t'| < ρ ∧ ‖u - u'‖ < ρ := by
  rw [Prod.mk_sub_mk, Prod.norm_mk, max_lt_iff, Real.norm_eq_abs]

theorem withTime_stages {s : ℕ} {c : Fin s → ℝ} {A : Matrix (Fin s) (Fin s) ℝ}
    (hrow : ∀ i, ∑ j, A i j = c i) {f : ℝ → E → E} {t h : ℝ} {u : E} {Z : Fin s → ℝ × E} :
    Stages (fun i j => A i j) (withTime f) (t, u) h Z ↔
      (∀ i, (Z i).1 = t + h * c i) ∧
        ∀ i, (Z i).2 = u + h • ∑ j, A i j • f (t + h * c j) (Z j).2 := by
  have key : Stages (fun i j => A i j) (withTime f) (t, u) h Z ↔
      ∀ i, (Z i).1 = t + h * c i ∧ (Z i).2 = u + h • ∑ j, A i j • f (Z j).1 (Z j).2 := by
    unfold Stages
    refine forall_congr' fun i => ?_
    rw [Prod.ext_iff]
    simp [withTime, Prod.fst_sum, Prod.snd_sum, hrow i]
  rw [key, forall_and]
  refine and_congr_right fun h1 => forall_congr' fun i => ?_
  simp only [h1]

theorem withTime_result {s : ℕ} {c b : Fin s → ℝ} (hb1 : ∑ i, b i = 1) {f : ℝ → E → E} {t h : ℝ}
    {u : E} {Z : Fin s → ℝ × E} (hZ : ∀ i, (Z i).1 = t + h * c i) :
    (t, u) + h • ∑ i, b i • withTime f (Z i)
      = (t + h, u + h • ∑ i, b i • f (t + h * c i) (Z i).2) := by
  refine Prod.ext ?_ ?_
  · simp [withTime, Prod.fst_sum, hb1]
  · simp [withTime, Prod.snd_sum, hZ]

theorem withTime_solves {f : ℝ → E → E} {y : ℝ → E} {t0 T : ℝ} (hy : Solves f y t0 T) :
    ∀ s ∈ Set.Icc (0 : ℝ) (T - t0), HasDerivWithinAt (fun s => (t0 + s, y (t0 + s)))
      (withTime f (t0 + s, y (t0 + s))) (Set.Icc 0 (T - t0)) s := by
  intro s hs
  have h1 := hy (t0 + s) ⟨by linarith [hs.1], by linarith [hs.2]⟩
  have h2 : HasDerivWithinAt (fun s : ℝ => t0 + s) 1 (Set.Icc 0 (T - t0)) s :=
    ((hasDerivAt_id s).const_add t0).hasDerivWithinAt
  have h3 := h1.scomp s h2 (fun q hq => ⟨by linarith [hq.1], by linarith [hq.2]⟩)
  rw [one_smul] at h3
  exact h2.prodMk h3

theorem withTime_smooth {f : ℝ → E → E} {y : ℝ → E} {t0 T : ℝ} {p : ℕ}
    (hf : SmoothAlong p f y t0 T) :
    ∀ s ∈ Set.Icc (0 : ℝ) (T - t0), ContDiffAt ℝ p (withTime f) (t0 + s, y (t0 + s)) := by
  intro s hs
  exact contDiffAt_const.prodMk (hf (t0 + s) ⟨by linarith [hs.1], by linarith [hs.2]⟩)

theorem abs_mul_lt {s : ℕ} (c : Fin s → ℝ) {h ρ : ℝ} (hρ : 0 < ρ) (hh : 0 ≤ h)
    (hlt : h < ρ / (∑ i, |c i| + 1)) (i : Fin s) : |h * c i| < ρ := by
  have h0 : 0 ≤ ∑ i, |c i| := Finset.sum_nonneg fun i _ => abs_nonneg _
  have h1 : |c i| ≤ ∑ i, |c i| :=
    Finset.single_le_sum (f := fun i => |c i|) (fun i _ => abs_nonneg _) (Finset.mem_univ i)
  rw [lt_div_iff₀ (by positivity)] at hlt
  rw [abs_mul, abs_of_nonneg hh]
  nlinarith

/-- Tree conditions give the local order on every smooth equation. -/
theorem localOrder_of_trees [CompleteSpace E] {s : ℕ} {c b : Fin s → ℝ}
    {A : Matrix (Fin s) (Fin s) ℝ} (hrow : ∀ i, ∑ j, A i j = c i) {p : ℕ} (hp : 1 ≤ p)
    (hb : ∀ t : RTree, t.order ≤ p → t.elementaryWeight A b = 1 / t.density) {f : ℝ → E → E}
    {y : ℝ → E} {t0 T : ℝ} (hy : Solves f y t0 T) (hf : SmoothAlong p f y t0 T) :
    LocalOrder c A b p f y t0 T := by
  have hb1 : ∑ i, b i = 1 := by
    have := hb .leaf (by simpa [order] using hp)
    simpa [elementaryWeight, stageWeight, dotProduct, density, order, childDensity] using this
  have hy' := withTime_solves hy
  have hf' := withTime_smooth hf
  obtain ⟨B, -, hB⟩ := elemDiff_bound (isCompact_Icc.image_of_continuousOn fun s hs =>
    (hy' s hs).continuousWithinAt) (p := p) (f := withTime f) (by
      rintro _ ⟨s, hs, rfl⟩
      exact hf' s hs)
  obtain ⟨ρ, hρ, H⟩ := local_full (A := fun i j => A i j) (b := b) (W := stageWeight A) (ε := 0)
    (stageWeight_node A) hp hy' hf' (fun s hs => hB _ ⟨s, hs, rfl⟩) (fun t ht => by
      have := hb t ht
      rw [elementaryWeight, dotProduct] at this
      rw [this, sub_self, abs_zero])
  obtain ⟨h0, hh0, C, hC, H⟩ := H ρ hρ le_rfl
  have hc0 : 0 ≤ ∑ i, |c i| := Finset.sum_nonneg fun i _ => abs_nonneg _
  refine ⟨ρ, hρ, min h0 (ρ / (∑ i, |c i| + 1)), lt_min hh0 (by positivity), C,
    fun t h ht hh hlt hth => ?_⟩
  obtain ⟨⟨Z, hZ, hZn⟩, H2, H3⟩ := H (t - t0) ⟨by linarith, by linarith⟩ h
    ⟨hh, hlt.trans_le (min_le_left _ _)⟩ (by linarith)
  have hcρ := abs_mul_lt c hρ hh (hlt.trans_le (min_le_right _ _))
  rw [add_sub_cancel] at hZ H2 H3
  simp only [add_sub_cancel] at hZn
  -- a step as a step with time
  have hlift : ∀ Y u1, NearStep c A b f t h (y t) ρ Y u1 →
      Stages (fun i j => A i j) (withTime f) (t, y t) h (fun i => (t + h * c i, Y i)) ∧
        ∀ i, ‖((t + h * c i, Y i) : ℝ × E) - (t, y t)‖ < ρ := by
    rintro Y u1 ⟨⟨hs, -⟩, hn⟩
    refine ⟨(withTime_stages hrow).2 ⟨fun i => rfl, hs⟩, fun i => norm_pair_lt.2 ⟨?_, hn i⟩⟩
    rw [add_sub_cancel_left]
    exact hcρ i
  constructor
  · obtain ⟨hZ1, hZ2⟩ := (withTime_stages hrow).1 hZ
    refine ⟨(fun i => (Z i).2, y t + h • ∑ i, b i • f (t + h * c i) (Z i).2), ⟨⟨hZ2, rfl⟩, ?_⟩, ?_⟩
    · intro i
      have := hZn i
      rw [← Prod.mk.eta (p := Z i), norm_pair_lt] at this
      exact this.2
    · rintro ⟨Y, u1⟩ hv
      obtain ⟨l1, l2⟩ := hlift Y u1 hv
      have hYZ := H2 _ _ l1 hZ l2 hZn
      have hY : Y = fun i => (Z i).2 := by
        funext i
        rw [← congrFun hYZ i]
      have hu1 := hv.1.result
      subst hY
      exact Prod.ext rfl hu1
  · intro Y u1 hv
    obtain ⟨l1, l2⟩ := hlift Y u1 hv
    have := H3 _ l1 l2
    rw [withTime_result hb1 (fun i => rfl), show t0 + (t - t0 + h) = t + h by ring, ← hv.1.result,
      zero_mul, zero_mul, zero_add, Prod.mk_sub_mk, Prod.norm_mk] at this
    exact (le_max_right _ _).trans this

/-- Tree conditions give the order of convergence on every smooth equation. -/
theorem globalOrder_of_trees [CompleteSpace E] {s : ℕ} {c b : Fin s → ℝ}
    {A : Matrix (Fin s) (Fin s) ℝ} (hrow : ∀ i, ∑ j, A i j = c i) {p : ℕ} (hp : 1 ≤ p)
    (hb : ∀ t : RTree, t.order ≤ p → t.elementaryWeight A b = 1 / t.density) {f : ℝ → E → E}
    {y : ℝ → E} {t0 T : ℝ} (hy : Solves f y t0 T) (hf : SmoothAlong p f y t0 T) :
    GlobalOrder c A b p f y t0 T := by
  have hb1 : ∑ i, b i = 1 := by
    have := hb .leaf (by simpa [order] using hp)
    simpa [elementaryWeight, stageWeight, dotProduct, density, order, childDensity] using this
  obtain ⟨ρ, hρ, h0, hh0, C, hC, H⟩ := global_uniform (A := fun i j => A i j) (b := b)
    (W := stageWeight A) (stageWeight_node A) hp (fun t ht => hb t ht) (withTime_solves hy)
    (withTime_smooth hf)
  have hc0 : 0 ≤ ∑ i, |c i| := Finset.sum_nonneg fun i _ => abs_nonneg _
  refine ⟨ρ, hρ, min h0 (ρ / (∑ i, |c i| + 1)), lt_min hh0 (by positivity), C,
    fun h hh hlt N hN => ?_⟩
  obtain ⟨⟨z, Z, hz⟩, H2, H3⟩ := H h ⟨hh, hlt.trans_le (min_le_left _ _)⟩ N (by linarith)
  have hcρ := abs_mul_lt c hρ hh (hlt.trans_le (min_le_right _ _))
  rw [add_zero] at hz H2 H3
  have hlift : ∀ u Y, RKRun c A b f t0 h (y t0) ρ N u Y →
      Run (fun i j => A i j) b (withTime f) (t0, y t0) h ρ N (fun n => (t0 + n * h, u n))
        (fun n i => (t0 + n * h + h * c i, Y n i)) := by
    intro u Y hr
    refine ⟨by simp [hr.start], fun n hn => ?_, fun n hn i => ?_, fun n hn => ?_⟩
    · exact (withTime_stages hrow).2 ⟨fun i => rfl, (hr.step n hn).1.stages⟩
    · refine norm_pair_lt.2 ⟨?_, (hr.step n hn).2 i⟩
      rw [add_sub_cancel_left]
      exact hcρ i
    · rw [withTime_result hb1 (fun i => rfl), ← (hr.step n hn).1.result]
      refine Prod.ext ?_ rfl
      push_cast
      ring
  refine ⟨?_, ?_, ?_⟩
  · have ht : ∀ n ≤ N, (z n).1 = t0 + n * h ∧
        (n < N → ∀ i, (Z n i).1 = t0 + n * h + h * c i) := by
      intro n
      induction n with
      | zero =>
        intro _
        have h1 : z 0 = (t0, y t0) := hz.start
        refine ⟨by simp [h1], fun hn i => ?_⟩
        have := hz.stages 0 hn
        rw [h1, withTime_stages hrow] at this
        simpa using this.1 i
      | succ n ih =>
        intro hn
        obtain ⟨ih1, ih2⟩ := ih (by omega)
        have h1 : (z (n + 1)).1 = t0 + (n + 1 : ℕ) * h := by
          have := hz.result n (by omega)
          rw [← Prod.mk.eta (p := z n), withTime_result hb1 (c := c)
            (fun i => by rw [ih1]; exact ih2 (by omega) i)] at this
          rw [this, ih1]
          push_cast
          ring
        refine ⟨h1, fun hn' i => ?_⟩
        have := hz.stages (n + 1) hn'
        rw [← Prod.mk.eta (p := z (n + 1)), withTime_stages hrow, h1] at this
        exact this.1 i
    refine ⟨fun n => (z n).2, fun n i => (Z n i).2, ?_, fun n hn => ⟨⟨?_, ?_⟩, fun i => ?_⟩⟩
    · have h1 : z 0 = (t0, y t0) := hz.start
      simp [h1]
    · have := hz.stages n hn
      rw [← Prod.mk.eta (p := z n), withTime_stages hrow, (ht n hn.le).1] at this
      exact this.2
    · have := hz.result n hn
      rw [← Prod.mk.eta (p := z n), (ht n hn.le).1, withTime_result hb1 ((ht n hn.le).2 hn)] at this
      rw [this]
    · have := hz.near n hn i
      rw [← Prod.mk.eta (p := Z n i), ← Prod.mk.eta (p := z n), norm_pair_lt] at this
      exact this.2
  · intro u Y hr n hn
    have := H2 _ _ (hlift u Y hr) n hn
    rw [Prod.mk_sub_mk, Prod.norm_mk] at this
    exact (le_max_right _ _).trans this
  · intro u Y u' Y' hr hr'
    obtain ⟨e1, e2⟩ := H3 _ _ _ _ (hlift u Y hr) (hlift u' Y' hr')
    refine ⟨fun n hn => ?_, fun n hn => ?_⟩
    · exact congrArg Prod.snd (e1 n hn)
    · funext i
      exact congrArg Prod.snd (congrFun (e2 n hn) i)

end QMat.Spec
