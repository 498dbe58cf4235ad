import Verif.Props.Smooth
import Verif.Props.Sparse
import Verif.Props.Num
import Mathlib.Analysis.SpecialFunctions.Trigonometric.Bounds

/-!
# C110: sparse interpolation and extrapolation of functions that are not polynomials

`getSparseInterpolationMatrix(inPoints, outPoints, order)` and `getExtrapolationMatrix(nodes, times,
pOrder)` are exact for polynomials (C12, C63).  Here the error for smooth functions is bounded: on a grid
with spacing at most `h` it is at most `max |f⁽ᵒ⁾| / o! · (o h)ᵒ` with `o = order`, so `order` is the order
of convergence.  For rows that are copied from an earlier output point there is an additional term that
does not decrease with that power.
-/

namespace QMat

open Polynomial Matrix
open Set (Icc)

/-- A formula on the points of `S` that is exact for polynomials of degree below the number of points,
applied to a function with that many derivatives. -/
theorem smooth_row {n d : ℕ} {w z : Fin n → ℝ} {S : Finset (Fin n)} (hS : S.card = d)
    (h0 : ∀ j ∉ S, w j = 0) {t : ℝ}
    (he : ∀ p : ℝ[X], p.degree < d → ∑ j, w j * p.eval (z j) = p.eval t)
    (hinj : ∀ j ∈ S, ∀ j' ∈ S, z j = z j' → j = j') {a b : ℝ} (hab : a < b)
    (hz : ∀ j ∈ S, z j ∈ Icc a b) (ht : t ∈ Icc a b) {f : ℝ → ℝ} (hf : ContDiffOn ℝ d f (Icc a b)) {K : ℝ}
    (hK : ∀ ξ ∈ Icc a b, |iteratedDerivWithin d f (Icc a b) ξ| ≤ K) :
    |∑ j, w j * f (z j) - f t| ≤ K / d.factorial * ∏ j ∈ S, |t - z j| := by
  set e := S.orderEmbOfFin hS with hedef
  have heS : ∀ k, e k ∈ S := fun k => S.orderEmbOfFin_mem hS k
  have hx : Function.Injective fun k => z (e k) := fun k k' h =>
    e.injective (hinj _ (heS k) _ (heS k') h)
  obtain ⟨p, hp, hm, -⟩ := exists_interpolant hx f
  have hsurj : ∀ j ∈ S, ∃ k, e k = j := fun j hj => by
    have : j ∈ Set.range e := by rw [Finset.range_orderEmbOfFin]; exact hj
    exact this
  have h1 : ∑ j, w j * f (z j) = p.eval t := by
    rw [← he p hp]
    refine Finset.sum_congr rfl fun j _ => ?_
    by_cases hj : j ∈ S
    · obtain ⟨k, rfl⟩ := hsurj j hj
      rw [← hm k]
    · rw [h0 j hj, zero_mul, zero_mul]
  obtain ⟨ξ, hξ, h⟩ := InterpError.interp hab hf hx (fun k => hz _ (heS k)) hp hm ht
  rw [h1, abs_sub_comm, h]
  refine (abs_remainder (hK ξ hξ)).trans (le_of_eq ?_)
  rw [Finset.abs_prod]
  congr 1
  refine Finset.prod_bij (fun k _ => e k) (fun k _ => heS k) (fun k _ k' _ h => e.injective h)
    (fun j hj => ?_) (fun k _ => rfl)
  obtain ⟨k, hk⟩ := hsurj j hj
  exact ⟨k, Finset.mem_univ _, hk⟩

/-- Points of a grid with spacing at most `h`. -/
theorem grid_dist {n : ℕ} {x : Fin n → ℝ} {h : ℝ}
    (hgap : ∀ j j' : Fin n, (j' : ℕ) = j + 1 → |x j' - x j| ≤ h) (j : Fin n) :
    ∀ (d : ℕ) (j' : Fin n), (j' : ℕ) = j + d → |x j' - x j| ≤ d * h := by
  intro d
  induction d with
  | zero =>
    intro j' hj
    have : j' = j := Fin.ext hj
    simp [this]
  | succ d ih =>
    intro j' hj
    have hlt : (j : ℕ) + d < n := by have := j'.2; omega
    have h1 := ih ⟨j + d, hlt⟩ rfl
    have h2 := hgap ⟨j + d, hlt⟩ j' (by rw [hj]; rfl)
    have := abs_add_le (x j' - x ⟨j + d, hlt⟩) (x ⟨j + d, hlt⟩ - x j)
    rw [sub_add_sub_cancel] at this
    push_cast
    linarith

theorem grid_near {n : ℕ} {x : Fin n → ℝ} {h : ℝ} (h0 : 0 ≤ h)
    (hgap : ∀ j j' : Fin n, (j' : ℕ) = j + 1 → |x j' - x j| ≤ h) {d : ℕ} (hd : d ≤ n) {t : ℝ}
    (hnear : ∃ k, |x k - t| ≤ h) :
    ∃ W : Finset (Fin n), W.card = d ∧ ∀ j ∈ W, |x j - t| ≤ d * h := by
  obtain ⟨k, hk⟩ := hnear
  have hkn := k.2
  set s := min (k : ℕ) (n - d) with hs
  have hlt : ∀ i : Fin d, s + i < n := fun i => by have := i.2; omega
  let g : Fin d ↪ Fin n := ⟨fun i => ⟨s + i, hlt i⟩, fun i i' hii => by
    have := congrArg Fin.val hii
    exact Fin.ext (by simpa using this)⟩
  refine ⟨Finset.univ.map g, by simp, fun j hj => ?_⟩
  obtain ⟨i, -, rfl⟩ := Finset.mem_map.1 hj
  have hi := i.2
  have key : ∃ m : ℕ, m + 1 ≤ d ∧ |x (g i) - x k| ≤ m * h := by
    rcases le_total (k : ℕ) (g i : ℕ) with hle | hle
    · refine ⟨(g i : ℕ) - k, ?_, grid_dist hgap k _ _ (by omega)⟩
      change s + i - (k : ℕ) + 1 ≤ d
      omega
    · refine ⟨(k : ℕ) - (g i : ℕ), ?_, ?_⟩
      · change (k : ℕ) - (s + i) + 1 ≤ d
        change s + i ≤ (k : ℕ) at hle
        omega
      · rw [abs_sub_comm]
        exact grid_dist hgap _ _ _ (by omega)
  obtain ⟨m, hm, hb⟩ := key
  have hm' : ((m : ℝ) + 1) * h ≤ d * h := by
    refine mul_le_mul_of_nonneg_right ?_ h0
    exact_mod_cast hm
  have := abs_add_le (x (g i) - x k) (x k - t)
  rw [sub_add_sub_cancel] at this
  linarith

/-- The closest points are at most `order` grid spacings away. -/
theorem closest_near {n : ℕ} {x : Fin n → ℝ} {h : ℝ} (h0 : 0 ≤ h)
    (hgap : ∀ j j' : Fin n, (j' : ℕ) = j + 1 → |x j' - x j| ≤ h) {d : ℕ} (hd : d ≤ n) {t : ℝ}
    (hnear : ∃ k, |x k - t| ≤ h) {S : Finset (Fin n)} (hS : S.card = d)
    (hc : ∀ a ∈ S, ∀ b ∉ S, |x a - t| ≤ |x b - t|) : ∀ a ∈ S, |x a - t| ≤ d * h := by
  obtain ⟨W, hW, hWn⟩ := grid_near h0 hgap hd hnear
  intro a ha
  by_contra hgt
  push Not at hgt
  have hsub : W ⊆ S.erase a := by
    intro b hb
    refine Finset.mem_erase.2 ⟨?_, ?_⟩
    · rintro rfl
      exact absurd (hWn _ hb) (not_le.2 hgt)
    · by_contra hbS
      exact absurd ((hc a ha b hbS).trans (hWn b hb)) (not_le.2 hgt)
  have := Finset.card_le_card hsub
  have h1 := Finset.card_erase_lt_of_mem ha
  omega

/-- C110: on a grid with spacing at most `h`, and for output points at most `h` away from some input
point, the interpolation of order `o` misses the value of a function with `o` derivatives by at most
`max |f⁽ᵒ⁾| / o! · (o h)ᵒ`; and by at most `max |f⁽ᵒ⁾| / o! · ∏ |t - x_j|` over the `o` closest points.
Whenever the offsets between input and output points are equal or not close, as in `C12_exact`. -/
theorem C110_sparse (sort : ArgSort) {n m : ℕ} (inPoints : Fin n → ℝ) (hinc : StrictMono inPoints)
    (outPoints : Fin m → ℝ) (order : ℕ) (ho : order ≤ n) (period : ℝ) (hper : period ≤ 0) (i : Fin m)
    (hclose : ∀ i' < i, ∀ j j', |(inPoints j - outPoints i) - (inPoints j' - outPoints i')| ≤
        1 / 10 ^ 8 + 1 / 10 ^ 5 * |inPoints j' - outPoints i'| →
      inPoints j - outPoints i = inPoints j' - outPoints i')
    (A : Matrix (Fin m) (Fin n) ℝ)
    (hA : getSparseInterpolationMatrix sort inPoints outPoints order period = .ok A)
    {a b : ℝ} (hab : a < b) (hin : ∀ j, inPoints j ∈ Icc a b) (hout : outPoints i ∈ Icc a b)
    (f : ℝ → ℝ) (hf : ContDiffOn ℝ order f (Icc a b)) (K : ℝ)
    (hK : ∀ ξ ∈ Icc a b, |iteratedDerivWithin order f (Icc a b) ξ| ≤ K) :
    (∃ S : Finset (Fin n), S.card = order ∧
      (∀ a ∈ S, ∀ b ∉ S, |inPoints a - outPoints i| ≤ |inPoints b - outPoints i|) ∧
      |∑ j, A i j * f (inPoints j) - f (outPoints i)| ≤
        K / order.factorial * ∏ j ∈ S, |outPoints i - inPoints j|) ∧
    ∀ h, (∀ j j' : Fin n, (j' : ℕ) = j + 1 → inPoints j' - inPoints j ≤ h) →
      (∃ k, |inPoints k - outPoints i| ≤ h) →
      |∑ j, A i j * f (inPoints j) - f (outPoints i)| ≤ K / order.factorial * (order * h) ^ order := by
  obtain ⟨A', hA', hrow⟩ := C12_rows sort inPoints hinc outPoints order ho period hper
  rw [hA] at hA'
  cases hA'
  obtain ⟨S, hS, hc, h0, -⟩ := hrow i
  have hb := smooth_row (w := A i) (z := inPoints) hS h0
    (fun p hp => C12_exact sort inPoints hinc outPoints order ho period hper i hclose A hA p hp)
    (fun j _ j' _ e => hinc.injective e) hab (fun j _ => hin j) hout hf hK
  refine ⟨⟨S, hS, hc, hb⟩, fun h hgap hnear => hb.trans ?_⟩
  have hK0 : 0 ≤ K := (abs_nonneg _).trans (hK _ hout)
  refine mul_le_mul_of_nonneg_left ?_ (div_nonneg hK0 (Nat.cast_nonneg _))
  have hh : 0 ≤ h := by obtain ⟨k, hk⟩ := hnear; exact (abs_nonneg _).trans hk
  have hd := closest_near hh (fun j j' e => by
    rw [abs_of_nonneg (sub_nonneg.2 (hinc.monotone (by rw [Fin.le_def]; omega)))]
    exact hgap j j' e) ho hnear hS hc
  calc ∏ j ∈ S, |outPoints i - inPoints j| ≤ ∏ _j ∈ S, (order * h) := by
        refine Finset.prod_le_prod (fun j _ => abs_nonneg _) fun j hj => ?_
        rw [abs_sub_comm]
        exact hd j hj
    _ = (order * h) ^ order := by rw [Finset.prod_const, hS]

/-- A formula that is exact for polynomials of degree below `d` at nearby points, applied to a function
with `d` derivatives. -/
theorem perturbed_row {n d : ℕ} {w x z : Fin n → ℝ} {S : Finset (Fin n)} (h0 : ∀ j ∉ S, w j = 0) {t : ℝ}
    (he : ∀ p : ℝ[X], p.degree < d → ∑ j, w j * p.eval (z j) = p.eval t) {R δ Λ : ℝ} (hR : 0 < R)
    (hx : ∀ j ∈ S, |x j - t| ≤ R) (hz : ∀ j ∈ S, |z j - t| ≤ R) (hxz : ∀ j ∈ S, |x j - z j| ≤ δ)
    {f : ℝ → ℝ} (hf : ContDiffOn ℝ d f (Icc (t - R) (t + R))) {K : ℝ}
    (hK : ∀ ξ ∈ Icc (t - R) (t + R), |iteratedDerivWithin d f (Icc (t - R) (t + R)) ξ| ≤ K)
    (hΛ0 : 0 ≤ Λ)
    (hΛ : ∀ u ∈ Icc (t - R) (t + R), ∀ v ∈ Icc (t - R) (t + R), |f u - f v| ≤ Λ * |u - v|) :
    |∑ j, w j * f (x j) - f t| ≤
      (1 + ∑ j, |w j|) * (K / d.factorial * (2 * R) ^ d) + (∑ j, |w j|) * (Λ * δ) := by
  have hI : ∀ u, |u - t| ≤ R → u ∈ Icc (t - R) (t + R) := fun u hu => by
    rw [abs_le] at hu
    exact ⟨by linarith, by linarith⟩
  obtain ⟨q, hq, hn⟩ := exists_near (show t - R < t + R by linarith) d hf hK
  rw [show t + R - (t - R) = 2 * R by ring] at hn
  set ε := K / d.factorial * (2 * R) ^ d
  have htI : t ∈ Icc (t - R) (t + R) := ⟨by linarith, by linarith⟩
  have e : ∑ j, w j * f (x j) - f t = ∑ j, w j * (f (x j) - f (z j)) +
      ∑ j, w j * (f (z j) - q.eval (z j)) - (f t - q.eval t) := by
    rw [← he q hq, ← Finset.sum_add_distrib, sub_sub_eq_add_sub, sub_left_inj, ← Finset.sum_add_distrib]
    exact Finset.sum_congr rfl fun j _ => by ring
  have h1 : |∑ j, w j * (f (x j) - f (z j))| ≤ ∑ j, |w j| * (Λ * δ) := by
    refine (Finset.abs_sum_le_sum_abs _ _).trans (Finset.sum_le_sum fun j _ => ?_)
    by_cases hj : j ∈ S
    · rw [abs_mul]
      refine mul_le_mul_of_nonneg_left ?_ (abs_nonneg _)
      exact (hΛ _ (hI _ (hx j hj)) _ (hI _ (hz j hj))).trans
        (mul_le_mul_of_nonneg_left (hxz j hj) hΛ0)
    · simp [h0 j hj]
  have h2 : |∑ j, w j * (f (z j) - q.eval (z j))| ≤ ∑ j, |w j| * ε := by
    refine (Finset.abs_sum_le_sum_abs _ _).trans (Finset.sum_le_sum fun j _ => ?_)
    by_cases hj : j ∈ S
    · rw [abs_mul]
      exact mul_le_mul_of_nonneg_left (hn _ (hI _ (hz j hj))) (abs_nonneg _)
    · simp [h0 j hj]
  rw [← Finset.sum_mul] at h1 h2
  have h3 := hn t htI
  rw [e]
  refine (abs_sub _ _).trans ?_
  have := abs_add_le (∑ j, w j * (f (x j) - f (z j))) (∑ j, w j * (f (z j) - q.eval (z j)))
  linarith

/-- C110, without any condition on the offsets: a row may be copied from an earlier output point whose
offsets are close, and the bound gets a term with the first derivative that does not decrease with the
power `order`. -/
theorem C110_sparse_reuse (sort : ArgSort) {n m : ℕ} (inPoints : Fin n → ℝ) (hinc : StrictMono inPoints)
    (outPoints : Fin m → ℝ) (order : ℕ) (ho : order ≤ n) (period : ℝ) (hper : period ≤ 0)
    {h R : ℝ} (hgap : ∀ j j' : Fin n, (j' : ℕ) = j + 1 → inPoints j' - inPoints j ≤ h) (h0 : 0 ≤ h)
    (hR : order * h + 1 / 10 ^ 8 ≤ (1 - 1 / 10 ^ 5) * R) :
    ∃ A, getSparseInterpolationMatrix sort inPoints outPoints order period = .ok A ∧
      ∀ i, (∃ k, |inPoints k - outPoints i| ≤ h) → ∀ (f : ℝ → ℝ) (K Λ : ℝ),
        ContDiffOn ℝ order f (Icc (outPoints i - R) (outPoints i + R)) →
        (∀ ξ ∈ Icc (outPoints i - R) (outPoints i + R),
          |iteratedDerivWithin order f (Icc (outPoints i - R) (outPoints i + R)) ξ| ≤ K) →
        (∀ u ∈ Icc (outPoints i - R) (outPoints i + R), ∀ v ∈ Icc (outPoints i - R) (outPoints i + R),
          |f u - f v| ≤ Λ * |u - v|) → 0 ≤ Λ →
        |∑ j, A i j * f (inPoints j) - f (outPoints i)| ≤
          (1 + ∑ j, |A i j|) * (K / order.factorial * (2 * R) ^ order) +
            (∑ j, |A i j|) * (Λ * (1 / 10 ^ 8 + 1 / 10 ^ 5 * R)) := by
  obtain ⟨A, hA, hrow⟩ := C12_rows sort inPoints hinc outPoints order ho period hper
  refine ⟨A, hA, fun i hnear f K Λ hf hK hΛ hΛ0 => ?_⟩
  obtain ⟨S, hS, hc, hz0, z, hz, he, -⟩ := hrow i
  have hd := closest_near h0 (fun j j' e => by
    rw [abs_of_nonneg (sub_nonneg.2 (hinc.monotone (by rw [Fin.le_def]; omega)))]
    exact hgap j j' e) ho hnear hS hc
  have hoh : 0 ≤ (order : ℝ) * h := by positivity
  have hR0 : 0 < R := by
    have : 0 < (1 - 1 / 10 ^ 5) * R := by linarith [show (0:ℝ) < 1 / 10 ^ 8 by norm_num]
    exact pos_of_mul_pos_right this (by norm_num)
  have hzR : ∀ j ∈ S, |z j - outPoints i| ≤ R := fun j hj => by
    have h1 := hz j hj
    have h2 := hd j hj
    have h3 := abs_add_le (z j - inPoints j) (inPoints j - outPoints i)
    rw [sub_add_sub_cancel, abs_sub_comm (z j) (inPoints j)] at h3
    nlinarith
  refine perturbed_row hz0 he hR0 (fun j hj => ?_) hzR (fun j hj => ?_) hf hK hΛ0 hΛ
  · have h2 := hd j hj
    have : (1 - 1 / 10 ^ 5) * R ≤ R := by linarith
    linarith [show (0:ℝ) < 1 / 10 ^ 8 by norm_num]
  · have h1 := hz j hj
    have h2 := hzR j hj
    linarith

/-! ## Periodic grids -/

section Periodic

variable {n : ℕ} {x : Fin n → ℝ} {P h : ℝ}

/-- The periodic continuation of the grid, from the image `q` of the first point on. -/
def gridImage (x : Fin n → ℝ) (P : ℝ) (hn : 0 < n) (q : ℤ) (i : ℕ) : ℝ :=
  x ⟨i % n, Nat.mod_lt _ hn⟩ + ((q + (i / n : ℕ) : ℤ) : ℝ) * P

theorem gridImage_gap (hn : 0 < n) (hinc : StrictMono x)
    (hgap : ∀ j j' : Fin n, (j' : ℕ) = j + 1 → x j' - x j ≤ h)
    (hwrap : ∀ j j' : Fin n, (j : ℕ) + 1 = n → (j' : ℕ) = 0 → x j' + P - x j ≤ h)
    (hin : ∀ j j', x j - x j' < P) (q : ℤ) (i : ℕ) :
    gridImage x P hn q i ≤ gridImage x P hn q (i + 1) ∧ gridImage x P hn q (i + 1) - gridImage x P hn q i ≤ h := by
  have hr := Nat.mod_lt i hn
  have hi := Nat.div_add_mod i n
  unfold gridImage
  by_cases hlt : i % n + 1 < n
  · obtain ⟨hd, hm⟩ := (Nat.div_mod_unique hn (a := i + 1) (c := i % n + 1) (d := i / n)).2 ⟨by omega, hlt⟩
    simp only [hd, hm]
    refine ⟨?_, ?_⟩
    · have := hinc.monotone (show (⟨i % n, hr⟩ : Fin n) ≤ ⟨i % n + 1, hlt⟩ by rw [Fin.le_def]; simp)
      linarith
    · have := hgap ⟨i % n, hr⟩ ⟨i % n + 1, hlt⟩ rfl
      linarith
  · have hmul : n * (i / n + 1) = n * (i / n) + n := by ring
    obtain ⟨hd, hm⟩ := (Nat.div_mod_unique hn (a := i + 1) (c := 0) (d := i / n + 1)).2 ⟨by omega, hn⟩
    simp only [hd, hm]
    have h1 := hwrap ⟨i % n, hr⟩ ⟨0, hn⟩ (by simp only; omega) rfl
    have h2 := hin ⟨i % n, hr⟩ ⟨0, hn⟩
    push_cast
    constructor <;> linarith

/-- There are `d ≤ n` images of different points within distance `d h`. -/
theorem gridImage_near (hn : 0 < n) (hP : 0 < P) (hinc : StrictMono x)
    (hgap : ∀ j j' : Fin n, (j' : ℕ) = j + 1 → x j' - x j ≤ h)
    (hwrap : ∀ j j' : Fin n, (j : ℕ) + 1 = n → (j' : ℕ) = 0 → x j' + P - x j ≤ h)
    (hin : ∀ j j', x j - x j' < P) {d : ℕ} (hd : d ≤ n) (t : ℝ) :
    ∃ (g : Fin d → Fin n) (c : Fin d → ℤ), Function.Injective g ∧
      ∀ i, |x (g i) + c i * P - t| ≤ d * h := by
  set q := ⌊(t - x ⟨0, hn⟩) / P⌋ with hq
  have hf1 := Int.floor_le ((t - x ⟨0, hn⟩) / P)
  have hf2 := Int.lt_floor_add_one ((t - x ⟨0, hn⟩) / P)
  rw [← hq, le_div_iff₀ hP] at hf1
  rw [← hq, div_lt_iff₀ hP] at hf2
  have hy := gridImage_gap (q := q) hn hinc hgap hwrap hin
  set y := gridImage x P hn q with hydef
  have y0 : y 0 ≤ t := by
    rw [hydef]
    unfold gridImage
    simp only [Nat.zero_mod, Nat.zero_div]
    push_cast
    linarith
  have yn : t < y n := by
    rw [hydef]
    unfold gridImage
    simp only [Nat.mod_self, Nat.div_self hn]
    push_cast
    linarith
  have hk : ∃ k, y k ≤ t ∧ t < y (k + 1) := by
    by_contra hno
    push Not at hno
    have : ∀ k, y k ≤ t := fun k => by
      induction k with
      | zero => exact y0
      | succ k ih => exact hno k ih
    exact absurd (this n) (not_le.2 yn)
  obtain ⟨k, hk1, hk2⟩ := hk
  have hh : 0 ≤ h := by have := hy 0; linarith
  have hdist : ∀ i : ℕ, 0 ≤ y (k + i) - y k ∧ y (k + i) - y k ≤ i * h := fun i => by
    induction i with
    | zero => simp
    | succ i ih =>
      have := hy (k + i)
      rw [← add_assoc]
      push_cast
      constructor <;> linarith
  refine ⟨fun i => ⟨(k + i) % n, Nat.mod_lt _ hn⟩, fun i => q + ((k + i) / n : ℕ), fun i i' hii => ?_,
    fun i => ?_⟩
  · have h1 : (k + (i : ℕ)) % n = (k + (i' : ℕ)) % n := congrArg Fin.val hii
    have h2 : (i : ℕ) % n = (i' : ℕ) % n := Nat.ModEq.add_left_cancel' k h1
    rw [Nat.mod_eq_of_lt (i.2.trans_le hd), Nat.mod_eq_of_lt (i'.2.trans_le hd)] at h2
    exact Fin.ext h2
  · have h1 := hdist i
    have h2 := hy k
    have hi : ((i : ℕ) : ℝ) + 1 ≤ d := by exact_mod_cast i.2
    have hi' := mul_le_mul_of_nonneg_right hi hh
    have h3 : y (k + i) = x ⟨(k + i) % n, Nat.mod_lt _ hn⟩ + ((q + ((k + i) / n : ℕ) : ℤ) : ℝ) * P := rfl
    simp only
    rw [← h3, abs_le]
    constructor <;> linarith

end Periodic

/-- C110, periodic: for a periodic function with `o` derivatives, points of one period whose spacing is at
most `h`, including the gap across the end of the period, and any output point inside or outside of the
period, the error is at most `max |f⁽ᵒ⁾| / o! · (o h)ᵒ`. -/
theorem C110_periodic (sort : ArgSort) {n m : ℕ} (inPoints : Fin n → ℝ) (hinc : StrictMono inPoints)
    (P : ℝ) (hP : 0 < P) (hin : ∀ j, 0 ≤ inPoints j ∧ inPoints j < P) (outPoints : Fin m → ℝ)
    (order : ℕ) (ho : order ≤ n) (hn : 0 < n) (i : Fin m)
    (hclose : ∀ i' < i, ∀ j j', ∀ c c' : ℤ,
      |(inPoints j + c * P - outPoints i) - (inPoints j' + c' * P - outPoints i')| ≤
        1 / 10 ^ 8 + 1 / 10 ^ 5 * |inPoints j' + c' * P - outPoints i'| →
      inPoints j + c * P - outPoints i = inPoints j' + c' * P - outPoints i')
    (A : Matrix (Fin m) (Fin n) ℝ)
    (hA : getSparseInterpolationMatrix sort inPoints outPoints order P = .ok A) {h : ℝ}
    (hgap : ∀ j j' : Fin n, (j' : ℕ) = j + 1 → inPoints j' - inPoints j ≤ h)
    (hwrap : ∀ j j' : Fin n, (j : ℕ) + 1 = n → (j' : ℕ) = 0 → inPoints j' + P - inPoints j ≤ h)
    (f : ℝ → ℝ) (hper : Function.Periodic f P) (hf : ContDiff ℝ order f) (K : ℝ)
    (hK : ∀ ξ, |iteratedDeriv order f ξ| ≤ K) :
    |∑ j, A i j * f (inPoints j) - f (outPoints i)| ≤ K / order.factorial * (order * h) ^ order := by
  obtain ⟨A', hA', hrow⟩ := C12_periodic sort inPoints hinc P hP hin outPoints order ho
  rw [hA] at hA'
  cases hA'
  obtain ⟨S, w, hS, hw, hc, h0, z, hz, he, hzc⟩ := hrow i
  have hzw : ∀ j ∈ S, z j = w j := by
    rcases hzc with hzc | ⟨i', hi', hzc⟩
    · exact hzc
    · intro j hj
      obtain ⟨j', c', hj'⟩ := hzc j hj
      obtain ⟨c, hcj⟩ := hw j
      have := hclose i' hi' j j' c c' (by
        rw [← hj', ← hcj, sub_sub_sub_cancel_right]
        exact hz j hj)
      linarith
  have hdiff : ∀ j j', inPoints j - inPoints j' < P := fun j j' => by
    linarith [(hin j).2, (hin j').1]
  -- all the images used are within `order` spacings
  obtain ⟨g, cg, hg, hgn⟩ := gridImage_near hn hP hinc hgap hwrap hdiff ho (outPoints i)
  have hnear : ∀ a ∈ S, |w a - outPoints i| ≤ order * h := by
    intro a ha
    by_contra hgt
    push Not at hgt
    have hmem : ∀ k, g k ∈ S.erase a := fun k => by
      have h1 : ¬ (g k ∉ S ∨ inPoints (g k) + cg k * P ≠ w (g k)) := fun hh =>
        absurd ((hc a ha _ _ hh).trans (hgn k)) (not_le.2 hgt)
      push Not at h1
      refine Finset.mem_erase.2 ⟨?_, h1.1⟩
      intro e
      have h2 := hgn k
      rw [h1.2, e] at h2
      exact absurd h2 (not_le.2 hgt)
    have hcard : (Finset.univ.image g).card ≤ (S.erase a).card :=
      Finset.card_le_card fun b hb => by
        obtain ⟨k, -, rfl⟩ := Finset.mem_image.1 hb
        exact hmem k
    rw [Finset.card_image_of_injective _ hg, Finset.card_univ, Fintype.card_fin] at hcard
    have := Finset.card_erase_lt_of_mem ha
    omega
  have hinj : ∀ j ∈ S, ∀ j' ∈ S, w j = w j' → j = j' := fun j _ j' _ e => by
    obtain ⟨c, hcj⟩ := hw j
    obtain ⟨c', hcj'⟩ := hw j'
    exact (image_inj inPoints hinc P hP hin (hcj ▸ hcj' ▸ e : inPoints j + c * P = inPoints j' + c' * P)).1
  have hh : 0 ≤ h := by
    have := gridImage_gap (q := 0) hn hinc hgap hwrap hdiff 0
    linarith
  have hoh : 0 ≤ (order : ℝ) * h := by positivity
  set a := outPoints i - (order * h + 1) with ha
  set b := outPoints i + (order * h + 1) with hb
  have hab : a < b := by rw [ha, hb]; linarith
  have hK0 : 0 ≤ K := (abs_nonneg _).trans (hK 0)
  have hbound := smooth_row (w := A i) (z := w) hS h0 (t := outPoints i) (fun p hp => by
      rw [← he p hp]
      refine Finset.sum_congr rfl fun j _ => ?_
      by_cases hj : j ∈ S
      · rw [hzw j hj]
      · rw [h0 j hj, zero_mul, zero_mul]) hinj hab (fun j hj => by
      have := abs_le.1 (hnear j hj)
      rw [ha, hb]
      exact ⟨by linarith, by linarith⟩) ⟨by rw [ha]; linarith, by rw [hb]; linarith⟩
      hf.contDiffOn (K := K) (fun ξ hξ => by
        rw [iteratedDerivWithin_eq_iteratedDeriv (uniqueDiffOn_Icc hab) hf.contDiffAt hξ]
        exact hK ξ)
  have hfw : ∑ j, A i j * f (inPoints j) = ∑ j, A i j * f (w j) :=
    Finset.sum_congr rfl fun j _ => by
      obtain ⟨c, hcj⟩ := hw j
      rw [hcj]
      congr 1
      exact (hper.int_mul c (inPoints j)).symm
  rw [hfw]
  refine hbound.trans (mul_le_mul_of_nonneg_left ?_ (div_nonneg hK0 (Nat.cast_nonneg _)))
  calc ∏ j ∈ S, |outPoints i - w j| ≤ ∏ _j ∈ S, (order * h) := by
        refine Finset.prod_le_prod (fun j _ => abs_nonneg _) fun j hj => ?_
        rw [abs_sub_comm]
        exact hnear j hj
    _ = (order * h) ^ order := by rw [Finset.prod_const, hS]

/-! ## Scale -/

/-- C110, finding: the comparison with the previous offsets has the absolute tolerance `1e-8`.  On a grid
of two points closer than that, all output points within the grid get the row of the first: for every
`ε ≤ 1e-8` the value of the function `x` at the grid point `ε` itself is `0`. -/
theorem C110_scale_fails (sort : ArgSort) (ε : ℝ) (h0 : 0 < ε) (hε : ε ≤ 1 / 10 ^ 8) :
    ∃ A, getSparseInterpolationMatrix sort ![(0:ℝ), ε] ![(0:ℝ), ε] 2 = .ok A ∧
      A 0 = A 1 ∧ ∑ j, A 1 j * ![(0:ℝ), ε] j = 0 := by
  have hinc : StrictMono ![(0:ℝ), ε] := by
    refine Fin.strictMono_iff_lt_succ.mpr fun i => ?_
    fin_cases i
    simpa using h0
  obtain ⟨A, hA, hrow⟩ := C12_rows sort ![(0:ℝ), ε] hinc ![(0:ℝ), ε] 2 le_rfl (-1) (by norm_num)
  have h01 : A 0 = A 1 := by
    let u : ℝ → Stencil 2 := fun out => { size := (Finset.univ : Finset (Fin 2)).card, points := fun k => ![(0:ℝ), ε] ((Finset.univ : Finset (Fin 2)).orderEmbOfFin rfl k) - out, idx := fun k => (Finset.univ : Finset (Fin 2)).orderEmbOfFin rfl k }
    obtain ⟨L, hL⟩ := new_default_total (u 0).points
    let l : LastLine := { size := (u 0).size, points := (u 0).points, line := L.getInterpolationMatrix (fun _ : Fin 1 => 0) 0 }
    have e0 : sparseLine none (u 0) = .ok l := by
      simp only [sparseLine, Option.bind_none, hL, bind, Except.bind, pure, Except.pure]
      rfl
    have e1 : sparseLine (some l) (u ε) = .ok l := by
      have : ∃ h : (u ε).size = l.size, npAllClose (u ε).points (fun k => l.points (Fin.cast h k)) := by
        refine ⟨rfl, fun k => ?_⟩
        change |(![(0:ℝ), ε] ((Finset.univ : Finset (Fin 2)).orderEmbOfFin rfl k) - ε) -
          (![(0:ℝ), ε] ((Finset.univ : Finset (Fin 2)).orderEmbOfFin rfl k) - 0)| ≤ 1 / 10 ^ 8 +
          1 / 10 ^ 5 * |![(0:ℝ), ε] ((Finset.univ : Finset (Fin 2)).orderEmbOfFin rfl k) - 0|
        generalize ![(0:ℝ), ε] ((Finset.univ : Finset (Fin 2)).orderEmbOfFin rfl k) = v
        rw [show v - ε - (v - 0) = -ε by ring, abs_neg, abs_of_pos h0]
        have := abs_nonneg (v - 0)
        linarith
      unfold sparseLine
      simp only [Option.bind_some, if_pos this]
    have hrows : sparseLoop (List.ofFn fun i : Fin 2 => u (![(0:ℝ), ε] i)) none =
        .ok [scatter (u 0).idx l.line, scatter (u 0).idx l.line] := by
      have hlist : (List.ofFn fun i : Fin 2 => u (![(0:ℝ), ε] i)) = [u 0, u ε] := by
        simp [List.ofFn_succ]
      rw [hlist]
      simp only [sparseLoop, bind, Except.bind, e0, e1]
      rfl
    have := sparse_ok sort ![(0:ℝ), ε] ![(0:ℝ), ε] 2 le_rfl (-1) _
      (fun i : Fin 2 => u (![(0:ℝ), ε] i)) (fun i => by
        rw [if_neg (by norm_num)]
        exact (stencilPlain_all sort ![(0:ℝ), ε] _).symm) hrows
    rw [hA] at this
    cases this
    rfl
  refine ⟨A, hA, h01, ?_⟩
  rw [← h01]
  have := C12_exact sort _ hinc ![(0:ℝ), ε] 2 le_rfl (-1) (by norm_num) 0 (by simp) A hA X
    (by rw [degree_X]; norm_num)
  simpa using this

/-! ## Extrapolation -/

/-- C110, extrapolation by least squares: with polynomials of degree at most `d`, for nodes and times in
`[a, b]`, the value at a time is missed by at most `(1 + ∑ |row|) · max |f⁽ᵈ⁺¹⁾| (b - a)ᵈ⁺¹ / (d + 1)!`,
and for every function by `1 + ∑ |row|` times its distance to those polynomials. -/
theorem C110_extrapolation {M N : ℕ} (nodes : Fin M → ℝ) (times : Fin N → ℝ) (d : ℕ)
    (P : Matrix (Fin N) (Fin M) ℝ) (hP : getExtrapolationMatrix nodes times (some d) = .ok P) (i : Fin N)
    (f : ℝ → ℝ) :
    (∀ (q : ℝ[X]) (ε : ℝ), q.natDegree ≤ d → (∀ j, |f (nodes j) - q.eval (nodes j)| ≤ ε) →
      |f (times i) - q.eval (times i)| ≤ ε →
      |(P *ᵥ fun j => f (nodes j)) i - f (times i)| ≤ (1 + ∑ j, |P i j|) * ε) ∧
    ∀ (a b K : ℝ), a < b → (∀ j, nodes j ∈ Icc a b) → times i ∈ Icc a b →
      ContDiffOn ℝ (d + 1 : ℕ) f (Icc a b) →
      (∀ ξ ∈ Icc a b, |iteratedDerivWithin (d + 1) f (Icc a b) ξ| ≤ K) →
      |(P *ᵥ fun j => f (nodes j)) i - f (times i)| ≤
        (1 + ∑ j, |P i j|) * (K / (d + 1).factorial * (b - a) ^ (d + 1)) := by
  have key : ∀ (q : ℝ[X]) (ε : ℝ), q.natDegree ≤ d → (∀ j, |f (nodes j) - q.eval (nodes j)| ≤ ε) →
      |f (times i) - q.eval (times i)| ≤ ε →
      |(P *ᵥ fun j => f (nodes j)) i - f (times i)| ≤ (1 + ∑ j, |P i j|) * ε := by
    intro q ε hq hn ht
    have h := congrFun (C63_exact nodes times d P hP q hq) i
    simp only [mulVec, dotProduct, Spec.vals] at h ⊢
    have e : ∑ j, P i j * f (nodes j) - f (times i) =
        ∑ j, P i j * (f (nodes j) - q.eval (nodes j)) - (f (times i) - q.eval (times i)) := by
      simp only [mul_sub, Finset.sum_sub_distrib]
      rw [h]; ring
    rw [e]
    have h1 : |∑ j, P i j * (f (nodes j) - q.eval (nodes j))| ≤ ∑ j, |P i j| * ε := by
      refine (Finset.abs_sum_le_sum_abs _ _).trans (Finset.sum_le_sum fun j _ => ?_)
      rw [abs_mul]
      exact mul_le_mul_of_nonneg_left (hn j) (abs_nonneg _)
    rw [← Finset.sum_mul] at h1
    refine (abs_sub _ _).trans ?_
    linarith
  refine ⟨key, fun a b K hab hn ht hf hK => ?_⟩
  obtain ⟨q, hq, hb⟩ := exists_near hab (d + 1) hf hK
  exact key q _ (Nat.lt_succ_iff.1 (by
    by_cases hq0 : q = 0
    · simp [hq0]
    · exact (natDegree_lt_iff_degree_lt hq0).2 hq)) (fun j => hb _ (hn j)) (hb _ ht)

/-- C110, extrapolation with the default degree: the classical remainder of interpolation, for times
inside or outside the range of the nodes. -/
theorem C110_extrapolation_default {M N : ℕ} (hM : 0 < M) (nodes : Fin M → ℝ) (times : Fin N → ℝ)
    (hinc : StrictMono nodes) {a b : ℝ} (hab : a < b) (hn : ∀ j, nodes j ∈ Icc a b)
    (ht : ∀ i, times i ∈ Icc a b) (f : ℝ → ℝ) (hf : ContDiffOn ℝ M f (Icc a b)) (K : ℝ)
    (hK : ∀ ξ ∈ Icc a b, |iteratedDerivWithin M f (Icc a b) ξ| ≤ K) :
    ∃ P, getExtrapolationMatrix nodes times = .ok P ∧
      ∀ i, |(P *ᵥ fun j => f (nodes j)) i - f (times i)| ≤
        K / M.factorial * ∏ j, |times i - nodes j| := by
  obtain ⟨L, hL⟩ := new_default_total nodes
  exact ⟨_, C63_is_interpolation hM nodes times hinc L hL, fun i =>
    C91_interpolation nodes hinc _ _ _ _ _ (by simp) L hL hab hn times ht f hf K hK i⟩

/-- C110, `hCoeffs`: for every collocation, on whatever interval, the value at `1` of a function with `M`
derivatives on an interval that contains the nodes and `1` is missed by at most `max |f⁽ᴹ⁾| / M! · ∏ |1 - x_j|`. -/
theorem C110_hCoeffs {M : ℕ} {nt qt : String} {a b : ℝ} (hab : a < b) (c : Collocation M)
    (hc : Collocation.new M nt qt a b = .ok c) {l r : ℝ} (hlr : l < r) (hn : ∀ j, c.nodes j ∈ Icc l r)
    (h1 : (1:ℝ) ∈ Icc l r) (f : ℝ → ℝ) (hf : ContDiffOn ℝ M f (Icc l r)) (K : ℝ)
    (hK : ∀ ξ ∈ Icc l r, |iteratedDerivWithin M f (Icc l r) ξ| ≤ K) :
    |∑ j, c.hCoeffs j * f (c.nodes j) - f 1| ≤ K / M.factorial * ∏ j, |1 - c.nodes j| := by
  obtain ⟨x, hM, h⟩ := collocation_spec hc
  exact smooth_row (S := Finset.univ) (by simp) (fun j hj => absurd (Finset.mem_univ j) hj)
    (fun p hp => C27_hCoeffs hab c hc p hp) (fun j _ j' _ e => (h.strictMono hab).injective e) hlr
    (fun j _ => hn j) h1 hf hK

/-! ## Instances -/

theorem sin_within {a b : ℝ} (hab : a < b) (o : ℕ) (ξ : ℝ) (hξ : ξ ∈ Icc a b) :
    |iteratedDerivWithin o Real.sin (Icc a b) ξ| ≤ 1 := by
  rw [iteratedDerivWithin_eq_iteratedDeriv (uniqueDiffOn_Icc hab) Real.contDiff_sin.contDiffAt hξ]
  exact Real.abs_iteratedDeriv_sin_le_one o ξ

theorem unit_grid {N : ℕ} (hN : 0 < N) : StrictMono fun j : Fin (N + 1) => (j : ℝ) / N := fun j j' h => by
  have : ((j : ℕ) : ℝ) < (j' : ℕ) := by exact_mod_cast h
  have hN' : (0:ℝ) < N := by exact_mod_cast hN
  exact div_lt_div_of_pos_right this hN'

theorem unit_near {N : ℕ} (hN : 0 < N) {t : ℝ} (ht : t ∈ Icc (0:ℝ) 1) :
    ∃ k : Fin (N + 1), |(k : ℝ) / N - t| ≤ 1 / N := by
  have hN' : (0:ℝ) < N := by exact_mod_cast hN
  have h0 : 0 ≤ t * N := mul_nonneg ht.1 hN'.le
  have h1 := Nat.floor_le h0
  have h2 := Nat.lt_floor_add_one (t * N)
  refine ⟨⟨⌊t * N⌋₊, ?_⟩, ?_⟩
  · have : (⌊t * N⌋₊ : ℝ) ≤ N := h1.trans (by nlinarith [ht.2])
    exact Nat.lt_succ_of_le (by exact_mod_cast this)
  · simp only
    rw [abs_sub_comm, abs_le, div_eq_mul_inv, div_eq_mul_inv]
    have h3 : t = t * N * (N:ℝ)⁻¹ := by field_simp
    have hi : (0:ℝ) < (N:ℝ)⁻¹ := by positivity
    have h4 := mul_le_mul_of_nonneg_right h1 hi.le
    have h5 := mul_lt_mul_of_pos_right h2 hi
    constructor <;> linarith

/-- C110, instance: the sine on a grid with `N` intervals, any order and any point of `[0, 1]`. -/
example (sort : ArgSort) {N : ℕ} (hN : 0 < N) (o : ℕ) (ho : o ≤ N + 1) (t : ℝ) (ht : t ∈ Icc (0:ℝ) 1) :
    ∃ A, getSparseInterpolationMatrix sort (fun j : Fin (N + 1) => (j : ℝ) / N) ![t] o = .ok A ∧
      |∑ j, A 0 j * Real.sin ((j : ℝ) / N) - Real.sin t| ≤ 1 / o.factorial * (o * (1 / N)) ^ o := by
  obtain ⟨A, hA, -⟩ := C12_rows sort _ (unit_grid hN) ![t] o ho (-1) (by norm_num)
  have hN' : (0:ℝ) < N := by exact_mod_cast hN
  refine ⟨A, hA, (C110_sparse sort _ (unit_grid hN) ![t] o ho (-1) (by norm_num) 0 (by simp) A hA
    zero_lt_one (fun j => ⟨by positivity, ?_⟩) ht Real.sin Real.contDiff_sin.contDiffOn 1
    (sin_within zero_lt_one o)).2 (1 / N) (fun j j' e => ?_) (unit_near hN ht)⟩
  · rw [div_le_one hN']
    exact_mod_cast Nat.lt_succ_iff.1 j.2
  · simp only [e]
    push_cast
    rw [← sub_div]
    simp

/-- C110, instance: the sine on a grid with `N` intervals and any number of points of `[0, 1]`. -/
example (sort : ArgSort) {N m : ℕ} (hN : 0 < N) (o : ℕ) (ho : o ≤ N + 1) (t : Fin m → ℝ)
    (ht : ∀ i, t i ∈ Icc (0:ℝ) 1) (R : ℝ) (hR : o * (1 / (N:ℝ)) + 1 / 10 ^ 8 ≤ (1 - 1 / 10 ^ 5) * R) :
    ∃ A, getSparseInterpolationMatrix sort (fun j : Fin (N + 1) => (j : ℝ) / N) t o = .ok A ∧
      ∀ i, |∑ j, A i j * Real.sin ((j : ℝ) / N) - Real.sin (t i)| ≤
        (1 + ∑ j, |A i j|) * (1 / o.factorial * (2 * R) ^ o) +
          (∑ j, |A i j|) * (1 * (1 / 10 ^ 8 + 1 / 10 ^ 5 * R)) := by
  have hN' : (0:ℝ) < N := by exact_mod_cast hN
  have hR0 : 0 < R := by
    have h1 : (0:ℝ) ≤ o * (1 / (N:ℝ)) := by positivity
    have : 0 < (1 - 1 / 10 ^ 5) * R := by linarith [show (0:ℝ) < 1 / 10 ^ 8 by norm_num]
    exact pos_of_mul_pos_right this (by norm_num)
  obtain ⟨A, hA, h⟩ := C110_sparse_reuse sort _ (unit_grid hN) t o ho (-1) (by norm_num) (h := 1 / N)
    (R := R) (fun j j' e => by
      simp only [e]
      push_cast
      rw [← sub_div]
      simp) (by positivity) hR
  exact ⟨A, hA, fun i => h i (unit_near hN (ht i)) Real.sin 1 1 Real.contDiff_sin.contDiffOn
    (sin_within (by linarith) o) (fun u _ v _ => by rw [one_mul]; exact Real.abs_sin_sub_sin_le u v)
    zero_le_one⟩

/-- C110, instance: the sine on `n` points of its period, at any real number. -/
example (sort : ArgSort) {n : ℕ} (hn : 0 < n) (o : ℕ) (ho : o ≤ n) (t : ℝ) :
    ∃ A, getSparseInterpolationMatrix sort (fun j : Fin n => (j : ℝ) * (2 * Real.pi / n)) ![t] o
        (2 * Real.pi) = .ok A ∧
      |∑ j, A 0 j * Real.sin ((j : ℝ) * (2 * Real.pi / n)) - Real.sin t| ≤
        1 / o.factorial * (o * (2 * Real.pi / n)) ^ o := by
  have hn' : (0:ℝ) < n := by exact_mod_cast hn
  have hp := Real.two_pi_pos
  have hs : 0 < 2 * Real.pi / n := by positivity
  have hinc : StrictMono fun j : Fin n => (j : ℝ) * (2 * Real.pi / n) := fun j j' h => by
    have : ((j : ℕ) : ℝ) < (j' : ℕ) := by exact_mod_cast h
    exact mul_lt_mul_of_pos_right this hs
  have hin : ∀ j : Fin n, 0 ≤ (j : ℝ) * (2 * Real.pi / n) ∧ (j : ℝ) * (2 * Real.pi / n) < 2 * Real.pi :=
    fun j => ⟨by positivity, by
      have h1 : ((j : ℕ) : ℝ) < n := by exact_mod_cast j.2
      calc (j : ℝ) * (2 * Real.pi / n) < n * (2 * Real.pi / n) := mul_lt_mul_of_pos_right h1 hs
        _ = 2 * Real.pi := by field_simp⟩
  obtain ⟨A, hA, -⟩ := C12_periodic sort _ hinc _ hp hin ![t] o ho
  refine ⟨A, hA, C110_periodic sort _ hinc _ hp hin ![t] o ho hn 0 (by simp) A hA
    (fun j j' e => ?_) (fun j j' e e' => ?_) Real.sin Real.sin_periodic Real.contDiff_sin 1
    (Real.abs_iteratedDeriv_sin_le_one o)⟩
  · simp only [e]
    push_cast
    linarith
  · have hj : ((j : ℕ) : ℝ) = n - 1 := by
      have : ((j : ℕ) : ℝ) + 1 = n := by exact_mod_cast e
      linarith
    simp only [hj, e']
    push_cast
    rw [sub_mul, mul_div_cancel₀ _ hn'.ne']
    linarith

/-- C110, instance: a grid of two points at distance `1e-9`. -/
example (sort : ArgSort) : ∃ A, getSparseInterpolationMatrix sort ![(0:ℝ), 1 / 10 ^ 9] ![(0:ℝ), 1 / 10 ^ 9] 2 =
    .ok A ∧ A 0 = A 1 ∧ ∑ j, A 1 j * ![(0:ℝ), 1 / 10 ^ 9] j = 0 :=
  C110_scale_fails sort _ (by norm_num) (by norm_num)

/-- C110, instance: extrapolation of the sine from `0, 1/2, 1` to `3/2`, by a line and by a parabola. -/
example : (∃ P, getExtrapolationMatrix ![(0:ℝ), 1/2, 1] ![(3/2:ℝ)] (some (1 : ℕ)) = .ok P ∧
      |(P *ᵥ fun j => Real.sin (![(0:ℝ), 1/2, 1] j)) 0 - Real.sin (3/2)| ≤
        (1 + ∑ j, |P 0 j|) * (1 / (1 + 1 : ℕ).factorial * (3/2 - 0) ^ (1 + 1))) ∧
    ∃ P, getExtrapolationMatrix ![(0:ℝ), 1/2, 1] ![(3/2:ℝ)] = .ok P ∧
      |(P *ᵥ fun j => Real.sin (![(0:ℝ), 1/2, 1] j)) 0 - Real.sin (3/2)| ≤ 1 / 8 := by
  have hab : (0:ℝ) < 3/2 := by norm_num
  have hn : ∀ j, ![(0:ℝ), 1/2, 1] j ∈ Icc (0:ℝ) (3/2) := fun j => by fin_cases j <;> norm_num
  have ht : ∀ i, ![(3/2:ℝ)] i ∈ Icc (0:ℝ) (3/2) := fun i => by fin_cases i; norm_num
  constructor
  · obtain ⟨P, hP⟩ := (C63_total ![(0:ℝ), 1/2, 1] ![(3/2:ℝ)] (1 : ℕ)).2.2 (by norm_num) (by
      rw [Finset.card_image_of_injective _ strictMono_ex.injective]; simp)
    exact ⟨P, hP, (C110_extrapolation _ _ 1 P hP 0 Real.sin).2 0 (3/2) 1 hab hn (ht 0)
      Real.contDiff_sin.contDiffOn (sin_within hab _)⟩
  · obtain ⟨P, hP, h⟩ := C110_extrapolation_default (by norm_num) ![(0:ℝ), 1/2, 1] ![(3/2:ℝ)] strictMono_ex
      hab hn ht Real.sin Real.contDiff_sin.contDiffOn 1 (sin_within hab 3)
    refine ⟨P, hP, (h 0).trans ?_⟩
    simp [Fin.prod_univ_three, Nat.factorial]
    norm_num [abs_of_pos]

/-- C110, instance: the sine at the right end from the values at Gauss nodes. -/
example {M : ℕ} (hM : 0 < M) : ∃ c : Collocation M, Collocation.new M "LEGENDRE" "GAUSS" 0 1 = .ok c ∧
    |∑ j, c.hCoeffs j * Real.sin (c.nodes j) - Real.sin 1| ≤
      1 / M.factorial * ∏ j, |1 - c.nodes j| := by
  obtain ⟨c, hc⟩ := collocation_new_ok (M := M) (nt := "LEGENDRE") (qt := "GAUSS") (by decide)
    (by decide) ⟨hM, fun h => by simp at h⟩ 0 1
  refine ⟨c, hc, C110_hCoeffs zero_lt_one c hc zero_lt_one
    (fun j => (C24_collocation_nodes zero_lt_one c hc).2.1 j) (by norm_num) Real.sin
    Real.contDiff_sin.contDiffOn 1 (sin_within zero_lt_one M)⟩

end QMat
