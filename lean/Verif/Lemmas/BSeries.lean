import Verif.Lemmas.TreeNode
import Mathlib.Analysis.Analytic.Basic
import Mathlib.Analysis.Calculus.FormalMultilinearSeries
import Mathlib.Analysis.Normed.Module.Multilinear.Basic
import Mathlib.Analysis.Asymptotics.Lemmas
import Mathlib.Analysis.Calculus.MeanValue
import Mathlib.Analysis.Calculus.Deriv.Pow

/-!
# Elementary differentials and expansions in powers of the step size
-/

namespace QMat.Spec

open Filter Asymptotics Topology

variable {E : Type*} [NormedAddCommGroup E] [NormedSpace ℝ E]

namespace RTree

/-- The elementary differentials of the children of the root. -/
noncomputable def diffVec (P : FormalMultilinearSeries ℝ E E) : RTree → (k : ℕ) × (Fin k → E)
  | leaf => ⟨0, Fin.elim0⟩
  | graft t s => ⟨(diffVec P t).1 + 1,
      Fin.snoc (α := fun _ => E) (diffVec P t).2 (P (diffVec P s).1 (diffVec P s).2)⟩

/-- The elementary differential of a tree. -/
noncomputable def elemDiff (P : FormalMultilinearSeries ℝ E E) (t : RTree) : E :=
  P (diffVec P t).1 (diffVec P t).2

theorem diffVec_node (P : FormalMultilinearSeries ℝ E E) : ∀ (k : ℕ) (v : Fin k → RTree),
    diffVec P (node k v) = ⟨k, fun j => elemDiff P (v j)⟩
  | 0, v => by
    simp only [node, diffVec]
    congr
    exact Subsingleton.elim _ _
  | k + 1, v => by
    simp only [node, diffVec]
    rw [diffVec_node P k (Fin.init v)]
    congr 1
    exact Fin.snoc_init_self (α := fun _ => E) (fun j => elemDiff P (v j))

theorem elemDiff_node (P : FormalMultilinearSeries ℝ E E) (k : ℕ) (v : Fin k → RTree) :
    elemDiff P (node k v) = P k fun j => elemDiff P (v j) := by
  unfold elemDiff
  rw [diffVec_node]
  rfl

end RTree

open RTree

variable {Λ : Type*} {l : Filter Λ} {h : Λ → ℝ} {P : Λ → FormalMultilinearSeries ℝ E E}

theorem multilinear_bigO {k : ℕ} (hP : (fun x => P x k) =O[l] (1 : Λ → ℝ))
    {z : Λ → Fin k → E} (hz : ∀ j, (fun x => z x j) =O[l] (1 : Λ → ℝ)) :
    (fun x => P x k (z x)) =O[l] (1 : Λ → ℝ) := by
  have h1 : (fun x => ∏ j, ‖z x j‖) =O[l] (fun x => ∏ _j : Fin k, (1 : ℝ)) :=
    IsBigO.finsetProd fun j _ => (hz j).norm_left
  have h2 : (fun x => ‖P x k‖ * ∏ j, ‖z x j‖) =O[l] (fun x => (1 : ℝ) * ∏ _j : Fin k, (1 : ℝ)) :=
    hP.norm_left.mul h1
  refine (IsBigO.of_norm_le fun x => (P x k).le_opNorm (z x)).trans (h2.trans ?_)
  simp only [Finset.prod_const_one, mul_one]
  exact isBigO_refl _ _

theorem elemDiff_bigO (hP : ∀ k, (fun x => P x k) =O[l] (1 : Λ → ℝ)) :
    ∀ (n : ℕ) (t : RTree), t.order ≤ n → (fun x => elemDiff (P x) t) =O[l] (1 : Λ → ℝ)
  | 0, t, h => by have := one_le_order t; omega
  | n + 1, t, h => by
    obtain ⟨k, v, rfl⟩ := exists_node t
    simp only [elemDiff_node]
    refine multilinear_bigO (hP k) fun j => elemDiff_bigO hP n (v j) ?_
    rw [order_node] at h
    have : (v j).order ≤ ∑ j, (v j).order :=
      Finset.single_le_sum (f := fun j => (v j).order) (fun _ _ => Nat.zero_le _)
        (Finset.mem_univ j)
    omega

theorem bigO_sum {ι : Type*} {S : Finset ι} {u : ι → Λ → E} {g : Λ → ℝ}
    (hu : ∀ i ∈ S, u i =O[l] g) : (fun x => ∑ i ∈ S, u i x) =O[l] g := by
  have := IsBigO.sum hu
  refine this.congr_left fun x => ?_
  simp

theorem pow_bigO_one {h : Λ → ℝ} (hh : h =O[l] (1 : Λ → ℝ)) (n : ℕ) :
    (fun x => h x ^ n) =O[l] (1 : Λ → ℝ) :=
  (hh.pow n).congr_right fun _ => one_pow n

theorem elemDiff_bigO' (hP : ∀ k, (fun x => P x k) =O[l] (1 : Λ → ℝ)) (t : RTree) :
    (fun x => elemDiff (P x) t) =O[l] (1 : Λ → ℝ) := elemDiff_bigO hP _ t le_rfl

theorem pow_bigO_pow (hh : h =O[l] (1 : Λ → ℝ)) {m n : ℕ} (hmn : m ≤ n) :
    (fun x => h x ^ n) =O[l] fun x => h x ^ m := by
  obtain ⟨d, rfl⟩ := Nat.exists_eq_add_of_le hmn
  have h1 : (fun x => h x ^ m * h x ^ d) =O[l] fun x => h x ^ m * (1 : ℝ) :=
    (isBigO_refl _ _).mul (pow_bigO_one hh d)
  simpa [pow_add] using h1

theorem term_bigO (hh : h =O[l] (1 : Λ → ℝ)) (hP : ∀ k, (fun x => P x k) =O[l] (1 : Λ → ℝ))
    (t : RTree) (w : ℝ) {m n : ℕ} (hmn : m ≤ n) :
    (fun x => (h x ^ n * w) • elemDiff (P x) t) =O[l] fun x => h x ^ m := by
  have h1 : (fun x => (h x ^ n * w) • elemDiff (P x) t) =O[l] fun x => h x ^ m * (1 : ℝ) := by
    have h2 : (fun x => h x ^ n * w) =O[l] fun x => h x ^ m := by
      refine IsBigO.trans ?_ (pow_bigO_pow hh hmn)
      simpa [mul_comm] using (isBigO_refl (fun x => h x ^ n) l).const_mul_left w
    have h3 := h2.smul (elemDiff_bigO' hP t)
    exact h3
  simpa using h1

theorem multilinear_sub_bigO {k : ℕ} (hP : (fun x => P x k) =O[l] (1 : Λ → ℝ)) {Z Z' : Λ → E}
    (hZ : Z =O[l] (1 : Λ → ℝ)) (hZ' : Z' =O[l] (1 : Λ → ℝ)) {g : Λ → ℝ}
    (hd : (fun x => Z x - Z' x) =O[l] g) :
    (fun x => P x k (fun _ => Z x) - P x k (fun _ => Z' x)) =O[l] g := by
  have hmax : (fun x => ‖Z x‖ + ‖Z' x‖) =O[l] (1 : Λ → ℝ) := hZ.norm_left.add hZ'.norm_left
  have h1 : (fun x => ‖P x k‖ * k * (‖Z x‖ + ‖Z' x‖) ^ (k - 1) * ‖Z x - Z' x‖) =O[l]
      fun x => (1 : ℝ) * 1 * 1 * g x := by
    refine ((hP.norm_left.mul (isBigO_const_const _ one_ne_zero _)).mul ?_).mul hd.norm_left
    exact pow_bigO_one hmax (k - 1)
  refine (IsBigO.of_norm_le fun x => ?_).trans (h1.trans (by simpa using isBigO_refl g l))
  refine ((P x k).norm_image_sub_le _ _).trans ?_
  rw [Fintype.card_fin]
  gcongr
  · refine max_le ((pi_norm_const_le (Z x)).trans ?_) ((pi_norm_const_le (Z' x)).trans ?_)
    · linarith [norm_nonneg (Z' x)]
    · linarith [norm_nonneg (Z x)]
  · have : (fun _ : Fin k => Z x) - (fun _ => Z' x) = fun _ => Z x - Z' x := rfl
    rw [this]
    exact pi_norm_const_le _

/-- Inserting an expansion over the trees with up to `m` vertices into the Taylor polynomial of `f`
gives an expansion over the trees with up to `m + 1` vertices. -/
theorem comp_expansion (hh : h =O[l] (1 : Λ → ℝ))
    (hP : ∀ k, (fun x => P x k) =O[l] (1 : Λ → ℝ)) {Z : Λ → E} {w w' : RTree → ℝ} {m p : ℕ}
    (hm : m < p)
    (hZ : (fun x => Z x - ∑ t ∈ upTo m, (h x ^ t.order * w t) • elemDiff (P x) t)
      =O[l] fun x => h x ^ (m + 1))
    (hw' : ∀ k (v : Fin k → RTree), w' (node k v) = ∏ j, w (v j)) :
    (fun x => (P x).partialSum p (Z x)
        - ∑ t ∈ upTo (m + 1), (h x ^ (t.order - 1) * w' t) • elemDiff (P x) t)
      =O[l] fun x => h x ^ (m + 1) := by
  set Z' : Λ → E := fun x => ∑ t ∈ upTo m, (h x ^ t.order * w t) • elemDiff (P x) t with hZ'
  have h1 : ∀ n, (fun x => h x ^ n) =O[l] (1 : Λ → ℝ) := pow_bigO_one hh
  have hZ'1 : Z' =O[l] (1 : Λ → ℝ) := by
    refine bigO_sum fun t _ => ?_
    exact (term_bigO hh hP t (w t) (Nat.zero_le _)).trans (h1 0)
  have hZ1 : Z =O[l] (1 : Λ → ℝ) := by
    exact ((hZ.trans (h1 _)).add hZ'1).congr_left fun x => sub_add_cancel _ _
  have hd : (fun x => (P x).partialSum p (Z x) - (P x).partialSum p (Z' x)) =O[l]
      fun x => h x ^ (m + 1) := by
    simp only [FormalMultilinearSeries.partialSum, ← Finset.sum_sub_distrib]
    exact bigO_sum fun k _ => multilinear_sub_bigO (hP k) hZ1 hZ'1 hZ
  -- the trees met by the expansion
  set R : Finset RTree := ((Finset.range p).sigma fun k => Fintype.piFinset fun _ : Fin k => upTo m).image
      fun σ => node σ.1 σ.2 with hR
  have hexp : ∀ x, (P x).partialSum p (Z' x)
      = ∑ t ∈ R, (h x ^ (t.order - 1) * w' t) • elemDiff (P x) t := by
    intro x
    rw [hR, Finset.sum_image, Finset.sum_sigma]
    · refine Finset.sum_congr rfl fun k _ => ?_
      rw [hZ', ContinuousMultilinearMap.map_sum_finset]
      refine Finset.sum_congr rfl fun v _ => ?_
      rw [ContinuousMultilinearMap.map_smul_univ, elemDiff_node, hw', order_node,
        Finset.prod_mul_distrib, Finset.prod_pow_eq_pow_sum, Nat.add_sub_cancel_left]
    · rintro ⟨k, v⟩ _ ⟨k', v'⟩ _ he
      exact node_injective he
  have hsub : upTo (m + 1) ⊆ R := by
    intro t ht
    rw [upTo, Finset.mem_filter, Finset.mem_image] at ht
    obtain ⟨⟨σ, hσ, rfl⟩, _⟩ := ht
    rw [hR, Finset.mem_image]
    refine ⟨σ, ?_, rfl⟩
    rw [Finset.mem_sigma, Finset.mem_range] at hσ ⊢
    exact ⟨by omega, hσ.2⟩
  have hrest : (fun x => (P x).partialSum p (Z' x)
      - ∑ t ∈ upTo (m + 1), (h x ^ (t.order - 1) * w' t) • elemDiff (P x) t) =O[l]
      fun x => h x ^ (m + 1) := by
    simp only [hexp, ← Finset.sum_sdiff hsub, add_sub_cancel_right]
    refine bigO_sum fun t ht => term_bigO hh hP t _ ?_
    rw [Finset.mem_sdiff, mem_upTo] at ht
    omega
  have := hd.add hrest
  simpa using this

/-- Expansion of the stages. -/
theorem stage_expansion {ι : Type*} [Fintype ι] {A : ι → ι → ℝ} {W : RTree → ι → ℝ}
    (hW : ∀ k (v : Fin k → RTree) i, W (node k v) i = ∏ j, ∑ l, A i l * W (v j) l)
    (hh : h =O[l] (1 : Λ → ℝ)) (hP : ∀ k, (fun x => P x k) =O[l] (1 : Λ → ℝ)) {p : ℕ}
    {K : ι → Λ → E} (hK1 : ∀ i, K i =O[l] (1 : Λ → ℝ))
    (hK : ∀ i, (fun x => K i x - (P x).partialSum p (h x • ∑ j, A i j • K j x))
      =O[l] fun x => h x ^ p) : ∀ m ≤ p, ∀ i,
    (fun x => K i x - ∑ t ∈ upTo m, (h x ^ (t.order - 1) * W t i) • elemDiff (P x) t)
      =O[l] fun x => h x ^ m
  | 0, _, i => by
    refine ((hK1 i).congr_left fun x => ?_).congr_right fun x => (pow_zero _).symm
    simp [upTo]
  | m + 1, hm, i => by
    have ih := stage_expansion hW hh hP hK1 hK m (by omega)
    have hZ : (fun x => h x • ∑ j, A i j • K j x
        - ∑ t ∈ upTo m, (h x ^ t.order * ∑ j, A i j * W t j) • elemDiff (P x) t)
        =O[l] fun x => h x ^ (m + 1) := by
      have h1 : (fun x => h x • ∑ j, A i j • (K j x
          - ∑ t ∈ upTo m, (h x ^ (t.order - 1) * W t j) • elemDiff (P x) t)) =O[l]
          fun x => h x * h x ^ m :=
        (isBigO_refl h l).smul (bigO_sum fun j _ => (ih j).const_smul_left _)
      refine (h1.congr_left fun x => ?_).congr_right fun x => (pow_succ' _ _).symm
      simp only [smul_sub, Finset.sum_sub_distrib, Finset.smul_sum, smul_smul]
      congr 1
      rw [Finset.sum_comm]
      refine Finset.sum_congr rfl fun t _ => ?_
      rw [Finset.mul_sum, Finset.sum_smul]
      refine Finset.sum_congr rfl fun j _ => ?_
      congr 1
      obtain ⟨n, hn⟩ : ∃ n, t.order = n + 1 := ⟨t.order - 1, by have := one_le_order t; omega⟩
      rw [hn, Nat.add_sub_cancel, pow_succ]
      ring
    have h2 := comp_expansion (w' := fun t => W t i) (w := fun t => ∑ j, A i j * W t j) hh hP
      (by omega : m < p) hZ fun k v => hW k v i
    have h3 := ((hK i).trans (pow_bigO_pow hh hm)).add h2
    simpa using h3

/-- Expansion of a step. -/
theorem step_expansion {ι : Type*} [Fintype ι] {A : ι → ι → ℝ} {W : RTree → ι → ℝ} (b : ι → ℝ)
    (hW : ∀ k (v : Fin k → RTree) i, W (node k v) i = ∏ j, ∑ l, A i l * W (v j) l)
    (hh : h =O[l] (1 : Λ → ℝ)) (hP : ∀ k, (fun x => P x k) =O[l] (1 : Λ → ℝ)) {p : ℕ}
    {K : ι → Λ → E} (hK1 : ∀ i, K i =O[l] (1 : Λ → ℝ))
    (hK : ∀ i, (fun x => K i x - (P x).partialSum p (h x • ∑ j, A i j • K j x))
      =O[l] fun x => h x ^ p) :
    (fun x => h x • ∑ i, b i • K i x
        - ∑ t ∈ upTo p, (h x ^ t.order * ∑ i, b i * W t i) • elemDiff (P x) t)
      =O[l] fun x => h x ^ (p + 1) := by
  have ih := stage_expansion hW hh hP hK1 hK p le_rfl
  have h1 : (fun x => h x • ∑ j, b j • (K j x
      - ∑ t ∈ upTo p, (h x ^ (t.order - 1) * W t j) • elemDiff (P x) t)) =O[l]
      fun x => h x * h x ^ p :=
    (isBigO_refl h l).smul (bigO_sum fun j _ => (ih j).const_smul_left _)
  refine (h1.congr_left fun x => ?_).congr_right fun x => (pow_succ' _ _).symm
  simp only [smul_sub, Finset.sum_sub_distrib, Finset.smul_sum, smul_smul]
  congr 1
  rw [Finset.sum_comm]
  refine Finset.sum_congr rfl fun t _ => ?_
  rw [Finset.mul_sum, Finset.sum_smul]
  refine Finset.sum_congr rfl fun j _ => ?_
  congr 1
  obtain ⟨n, hn⟩ : ∃ n, t.order = n + 1 := ⟨t.order - 1, by have := one_le_order t; omega⟩
  rw [hn, Nat.add_sub_cancel, pow_succ]
  ring

/-- Step sizes going to zero, uniformly in a parameter `x`, and at most `τ x`. -/
def small {X : Type*} (τ : X → ℝ) : Filter (X × ℝ) :=
  ((⊤ : Filter X) ×ˢ 𝓝[≥] (0 : ℝ)) ⊓ 𝓟 {q | q.2 ≤ τ q.1}

theorem eventually_small {X : Type*} {τ : X → ℝ} {q : X × ℝ → Prop} :
    (∀ᶠ x in small τ, q x) ↔
      ∃ δ > 0, ∀ x, ∀ s ∈ Set.Ico (0 : ℝ) δ, s ≤ τ x → q (x, s) := by
  unfold small
  rw [eventually_inf_principal, (((hasBasis_top (α := X)).prod (nhdsGE_basis (0 : ℝ)))).eventually_iff]
  constructor
  · rintro ⟨⟨_, δ⟩, ⟨_, hδ⟩, H⟩
    exact ⟨δ, hδ, fun x s hs hτ => H ⟨trivial, hs⟩ hτ⟩
  · rintro ⟨δ, hδ, H⟩
    exact ⟨((), δ), ⟨trivial, hδ⟩, fun x hx hτ => H x.1 x.2 hx.2 hτ⟩

omit [NormedSpace ℝ E] in
theorem bigO_small {X : Type*} {τ : X → ℝ} {r : X × ℝ → E} {m : ℕ} :
    (r =O[small τ] fun x => x.2 ^ m) ↔
      ∃ C, 0 ≤ C ∧ ∃ δ > 0, ∀ x, ∀ s ∈ Set.Ico (0 : ℝ) δ, s ≤ τ x → ‖r (x, s)‖ ≤ C * s ^ m := by
  constructor
  · intro H
    obtain ⟨C, hC, hb⟩ := H.exists_nonneg
    obtain ⟨δ, hδ, hs⟩ := eventually_small.1 (isBigOWith_iff.1 hb)
    refine ⟨C, hC, δ, hδ, fun x s h hτ => (hs x s h hτ).trans_eq ?_⟩
    rw [Real.norm_of_nonneg (pow_nonneg h.1 m)]
  · rintro ⟨C, _, δ, hδ, H⟩
    refine IsBigO.of_bound C
      (eventually_small.2 ⟨δ, hδ, fun x s hs hτ => (H x s hs hτ).trans_eq ?_⟩)
    rw [Real.norm_of_nonneg (pow_nonneg hs.1 m)]

/-- Integration of a bound in powers of the step size. -/
theorem bigO_integrate {X : Type*} {τ : X → ℝ} {z g : X × ℝ → E} (hz0 : ∀ x, z (x, 0) = 0)
    (hz : ∀ x, ∀ s ∈ Set.Icc (0 : ℝ) (τ x),
      HasDerivWithinAt (fun s => z (x, s)) (g (x, s)) (Set.Icc 0 (τ x)) s) {m : ℕ}
    (hg : g =O[small τ] fun x => x.2 ^ m) : z =O[small τ] fun x => x.2 ^ (m + 1) := by
  obtain ⟨C, hC, δ', hδ', hb⟩ := bigO_small.1 hg
  refine bigO_small.2 ⟨C, hC, δ', hδ', fun x s hs hτ => ?_⟩
  have := norm_image_sub_le_of_norm_deriv_le_segment' (f := fun s => z (x, s))
    (f' := fun s => g (x, s)) (a := 0) (b := s) (C := C * s ^ m)
    (fun y hy => (hz x y ⟨hy.1, hy.2.trans hτ⟩).mono (Set.Icc_subset_Icc_right hτ))
    (fun y hy => (hb x y ⟨hy.1, hy.2.trans hs.2⟩ (hy.2.le.trans hτ)).trans
      (mul_le_mul_of_nonneg_left (pow_le_pow_left₀ hy.1 hy.2.le m) hC)) s ⟨hs.1, le_rfl⟩
  simp only [hz0, sub_zero] at this
  rw [pow_succ, ← mul_assoc]
  exact this

theorem small_snd {X : Type*} {τ : X → ℝ} :
    (fun x : X × ℝ => x.2) =O[small τ] (1 : X × ℝ → ℝ) := by
  refine IsBigO.of_bound 1 (eventually_small.2 ⟨1, one_pos, fun x s hs _ => ?_⟩)
  rw [Real.norm_of_nonneg hs.1]
  simpa using hs.2.le

/-- Expansion of the exact solution. -/
theorem exact_expansion {X : Type*} {τ : X → ℝ} {P : X → FormalMultilinearSeries ℝ E E}
    (hP : ∀ k, (fun x : X × ℝ => P x.1 k) =O[small τ] (1 : X × ℝ → ℝ)) {p : ℕ}
    {z g : X × ℝ → E} (hz0 : ∀ x, z (x, 0) = 0)
    (hz : ∀ x, ∀ s ∈ Set.Icc (0 : ℝ) (τ x),
      HasDerivWithinAt (fun s => z (x, s)) (g (x, s)) (Set.Icc 0 (τ x)) s)
    (hg1 : g =O[small τ] (1 : X × ℝ → ℝ))
    (hg : (fun x => g x - (P x.1).partialSum p (z x)) =O[small τ] fun x => x.2 ^ p) :
    ∀ m ≤ p, (fun x => z x - ∑ t ∈ upTo m, (x.2 ^ t.order * (1 / t.density : ℝ)) •
      elemDiff (P x.1) t) =O[small τ] fun x => x.2 ^ (m + 1)
  | 0, _ => by
    have := bigO_integrate (m := 0) hz0 hz (hg1.congr_right fun x => (pow_zero _).symm)
    simpa [upTo] using this
  | m + 1, hm => by
    have ih := exact_expansion hP hz0 hz hg1 hg m (by omega)
    have h2 := comp_expansion (w' := fun t => (1 / t.childDensity : ℝ)) small_snd hP
      (by omega : m < p) ih fun k v => by
        simp only [childDensity_node, Nat.cast_prod, one_div, Finset.prod_inv_distrib]
    have h3 := (hg.trans (pow_bigO_pow small_snd hm)).add h2
    refine bigO_integrate (g := fun x => g x
      - ∑ t ∈ upTo (m + 1), (x.2 ^ (t.order - 1) * (1 / t.childDensity : ℝ)) • elemDiff (P x.1) t)
      (fun x => ?_) (fun x s hs => ?_) ?_
    · rw [hz0, zero_sub, neg_eq_zero]
      refine Finset.sum_eq_zero fun t _ => ?_
      rw [zero_pow (by have := one_le_order t; omega), zero_mul, zero_smul]
    · refine (hz x s hs).sub (HasDerivWithinAt.fun_sum fun t _ => ?_)
      have hd := ((hasDerivAt_pow t.order s).mul_const (1 / t.density : ℝ)).hasDerivWithinAt
        (s := Set.Icc (0 : ℝ) (τ x))
      refine (hd.smul_const (elemDiff (P x) t)).congr_deriv ?_
      congr 1
      have h0 : (t.order : ℝ) ≠ 0 := by
        have := one_le_order t
        exact_mod_cast (by omega : t.order ≠ 0)
      rw [density, Nat.cast_mul, one_div, mul_inv, one_div]
      field_simp
    · simpa using h3

end QMat.Spec
