import Mathlib.Analysis.Calculus.LocalExtr.Rolle
import Mathlib.Analysis.Calculus.ContDiff.Deriv
import Mathlib.Analysis.Calculus.IteratedDeriv.Defs
import Mathlib.Analysis.Calculus.Deriv.Polynomial
import Mathlib.Analysis.Calculus.Deriv.Add
import Mathlib.LinearAlgebra.Lagrange
import Mathlib.Data.Finset.Sort
import Mathlib.Data.Fintype.Order
import Mathlib.Tactic.Linarith
import Mathlib.Tactic.FieldSimp

/-!
# Remainder of polynomial interpolation

Iterated Rolle theorem for the difference of a smooth function and a polynomial, and the remainders of
the interpolation polynomial, of its first derivative at a node and of its second derivative at a node.
Nothing here mentions the model: these are facts of analysis that Mathlib does not have.
-/

namespace QMat
namespace InterpError

open Polynomial Finset
open Set (Icc Ioo Icc_subset_Icc Ioo_subset_Icc_self)

/-- One step of Rolle's theorem: between `k + 1` points where `f` meets a polynomial there are `k` new
points where the derivatives meet. -/
theorem rolle_step {a b : ℝ} {f : ℝ → ℝ} (q : ℝ[X]) (hf : DifferentiableOn ℝ f (Icc a b)) {k : ℕ}
    (S : Finset ℝ) (hS : S.card = k + 1) (hI : ∀ s ∈ S, s ∈ Icc a b) (hz : ∀ s ∈ S, f s = q.eval s) :
    ∃ S' : Finset ℝ, S'.card = k ∧ (∀ s ∈ S', s ∈ Icc a b) ∧ Disjoint S S' ∧
      ∀ s ∈ S', derivWithin f (Icc a b) s = (derivative q).eval s := by
  set z := S.orderEmbOfFin hS with hzdef
  have zS : ∀ i, z i ∈ S := fun i => S.orderEmbOfFin_mem hS i
  have hlt : ∀ i : Fin k, z i.castSucc < z i.succ := fun i => z.strictMono i.castSucc_lt_succ
  have hex : ∀ i : Fin k, ∃ c ∈ Ioo (z i.castSucc) (z i.succ),
      derivWithin f (Icc a b) c = (derivative q).eval c := by
    intro i
    have h1 := hI _ (zS i.castSucc)
    have h2 := hI _ (zS i.succ)
    have hsub : Icc (z i.castSucc) (z i.succ) ⊆ Icc a b := Icc_subset_Icc h1.1 h2.2
    obtain ⟨c, hc, hd⟩ := exists_deriv_eq_zero (f := fun s => f s - q.eval s) (hlt i)
      ((hf.continuousOn.mono hsub).sub q.differentiable.continuous.continuousOn)
      (by simp [hz _ (zS _)])
    have hcI : Icc a b ∈ nhds c :=
      Icc_mem_nhds (lt_of_le_of_lt h1.1 hc.1) (lt_of_lt_of_le hc.2 h2.2)
    have hfc : DifferentiableAt ℝ f c :=
      (hf c (hsub (Ioo_subset_Icc_self hc))).differentiableAt hcI
    refine ⟨c, hc, ?_⟩
    rw [derivWithin_of_mem_nhds hcI]
    have : deriv (fun s => f s - q.eval s) c = deriv f c - (derivative q).eval c := by
      rw [deriv_fun_sub hfc q.differentiableAt, Polynomial.deriv]
    rw [this] at hd
    linarith
  choose c hc hd using hex
  have hcI : ∀ i, c i ∈ Icc a b := fun i =>
    ⟨(hI _ (zS i.castSucc)).1.trans (hc i).1.le, (hc i).2.le.trans (hI _ (zS i.succ)).2⟩
  have hmono : StrictMono c := by
    intro i j hij
    have : z i.succ ≤ z j.castSucc := z.monotone (by
      rw [Fin.le_def]; simpa using hij)
    exact ((hc i).2.trans_le this).trans (hc j).1
  refine ⟨Finset.univ.image c, ?_, ?_, ?_, ?_⟩
  · rw [card_image_of_injective _ hmono.injective]; simp
  · intro s hs
    obtain ⟨i, -, rfl⟩ := Finset.mem_image.1 hs
    exact hcI i
  · rw [Finset.disjoint_left]
    intro s hs hs'
    obtain ⟨i, -, rfl⟩ := Finset.mem_image.1 hs'
    have hr : c i ∈ Set.range z := by
      rw [hzdef, S.range_orderEmbOfFin hS]; exact hs
    obtain ⟨j, hj⟩ := hr
    have h1 := (hc i).1
    have h2 := (hc i).2
    rw [← hj] at h1 h2
    have h3 := z.lt_iff_lt.1 h1
    have h4 := z.lt_iff_lt.1 h2
    rw [Fin.lt_def] at h3 h4
    simp at h3 h4
    omega
  · intro s hs
    obtain ⟨i, -, rfl⟩ := Finset.mem_image.1 hs
    exact hd i

/-- Iterated Rolle theorem: a function that meets a polynomial in `k + 1` points has the same `k`-th
derivative as the polynomial somewhere in the interval. -/
theorem rolle_iter {a b : ℝ} (hab : a < b) (k : ℕ) : ∀ {f : ℝ → ℝ} (q : ℝ[X])
    (_ : ContDiffOn ℝ k f (Icc a b)) (S : Finset ℝ) (_ : S.card = k + 1)
    (_ : ∀ s ∈ S, s ∈ Icc a b) (_ : ∀ s ∈ S, f s = q.eval s),
    ∃ ξ ∈ Icc a b, iteratedDerivWithin k f (Icc a b) ξ = (derivative^[k] q).eval ξ := by
  induction k with
  | zero =>
    intro f q _ S hS hI hz
    obtain ⟨s, hs⟩ := Finset.card_pos.1 (by omega : 0 < S.card)
    exact ⟨s, hI s hs, by simpa using hz s hs⟩
  | succ k ih =>
    intro f q hf S hS hI hz
    obtain ⟨S', hS', hI', -, hz'⟩ := rolle_step q
      (hf.differentiableOn (by exact_mod_cast Nat.succ_ne_zero k)) S hS hI hz
    obtain ⟨ξ, hξ, h⟩ := ih (f := derivWithin f (Icc a b)) (derivative q)
      (hf.derivWithin (uniqueDiffOn_Icc hab) (by norm_cast)) S' hS' hI' hz'
    exact ⟨ξ, hξ, by rw [iteratedDerivWithin_succ', h]; rfl⟩

theorem iterate_eval {q : ℝ[X]} {n : ℕ} (hq : q.natDegree ≤ n) (ξ : ℝ) :
    (derivative^[n] q).eval ξ = n.factorial * q.coeff n := by
  have h0 : (derivative^[n] q).natDegree ≤ 0 := by
    refine (natDegree_iterate_derivative q n).trans ?_
    omega
  rw [eq_C_of_natDegree_le_zero h0, eval_C, coeff_iterate_derivative]
  simp [Nat.descFactorial_self]

/-- A function that meets a polynomial of degree at most `n` in `n + 1` points. -/
theorem meet {a b : ℝ} (hab : a < b) {n : ℕ} {f : ℝ → ℝ} {q : ℝ[X]} (hq : q.natDegree ≤ n)
    (hf : ContDiffOn ℝ n f (Icc a b)) (S : Finset ℝ) (hS : S.card = n + 1)
    (hI : ∀ s ∈ S, s ∈ Icc a b) (hz : ∀ s ∈ S, f s = q.eval s) :
    ∃ ξ ∈ Icc a b, iteratedDerivWithin n f (Icc a b) ξ = n.factorial * q.coeff n := by
  obtain ⟨ξ, hξ, h⟩ := rolle_iter hab n q hf S hS hI hz
  exact ⟨ξ, hξ, by rw [h, iterate_eval hq]⟩

/-- The node polynomial `∏ (X - x_j)`. -/
noncomputable def node {n : ℕ} (x : Fin n → ℝ) : ℝ[X] := ∏ j, (X - C (x j))

section
variable {n : ℕ} (x : Fin n → ℝ)

theorem node_eval (t : ℝ) : (node x).eval t = ∏ j, (t - x j) := by
  simp [node, eval_prod]

theorem node_monic : (node x).Monic := monic_prod_of_monic _ _ fun j _ => monic_X_sub_C (x j)

theorem node_natDegree : (node x).natDegree = n := by
  simp [node, natDegree_prod_of_monic _ _ fun j _ => monic_X_sub_C (x j)]

theorem node_coeff : (node x).coeff n = 1 := by
  have := node_monic x
  rw [Monic, leadingCoeff, node_natDegree] at this
  exact this

theorem node_zero (i : Fin n) : (node x).eval (x i) = 0 := by
  rw [node_eval]
  exact prod_eq_zero (mem_univ i) (sub_self _)

theorem node_deriv (i : Fin n) : (derivative (node x)).eval (x i) = ∏ j ∈ univ.erase i, (x i - x j) := by
  classical
  rw [node, derivative_prod_finset, eval_finset_sum, sum_eq_single i]
  · simp [eval_prod]
  · intro j _ hj
    simp only [derivative_sub, derivative_X, derivative_C, sub_zero, mul_one, eval_prod]
    exact prod_eq_zero (mem_erase.2 ⟨hj.symm, mem_univ i⟩) (by simp)
  · simp

theorem node_deriv_ne (hx : Function.Injective x) (i : Fin n) :
    (derivative (node x)).eval (x i) ≠ 0 := by
  rw [node_deriv]
  refine prod_ne_zero_iff.2 fun j hj => sub_ne_zero.2 fun h => ?_
  exact (mem_erase.1 hj).1 (hx h).symm

end

variable {a b : ℝ} {n : ℕ} {x : Fin n → ℝ} {f : ℝ → ℝ} {p : ℝ[X]}

theorem image_card (hx : Function.Injective x) : (univ.image x).card = n := by
  rw [card_image_of_injective _ hx]; simp

theorem natDegree_add_mul (hp : p.degree < n) (c : ℝ) :
    (p + C c * node x).natDegree ≤ n := by
  refine natDegree_add_le_of_degree_le ?_ ?_
  · exact natDegree_le_of_degree_le hp.le
  · exact (natDegree_C_mul_le _ _).trans (node_natDegree x).le

theorem coeff_add_mul (hp : p.degree < n) (c : ℝ) : (p + C c * node x).coeff n = c := by
  rw [coeff_add, coeff_C_mul, node_coeff, coeff_eq_zero_of_degree_lt hp]; ring

/-- **Remainder of interpolation.** -/
theorem interp (hab : a < b) (hf : ContDiffOn ℝ n f (Icc a b)) (hx : Function.Injective x)
    (hI : ∀ i, x i ∈ Icc a b) (hp : p.degree < n) (hm : ∀ i, p.eval (x i) = f (x i)) {t : ℝ}
    (ht : t ∈ Icc a b) : ∃ ξ ∈ Icc a b,
      f t - p.eval t = iteratedDerivWithin n f (Icc a b) ξ / n.factorial * ∏ j, (t - x j) := by
  classical
  by_cases htx : ∃ i, t = x i
  · obtain ⟨i, rfl⟩ := htx
    refine ⟨x i, hI i, ?_⟩
    rw [hm i, sub_self, prod_eq_zero (mem_univ i) (sub_self _), mul_zero]
  · push Not at htx
    have hW : (node x).eval t ≠ 0 := by
      rw [node_eval]
      exact prod_ne_zero_iff.2 fun j _ => sub_ne_zero.2 (htx j)
    set c := (f t - p.eval t) / (node x).eval t with hc
    obtain ⟨ξ, hξ, h⟩ := meet hab (natDegree_add_mul (x := x) hp c) hf (insert t (univ.image x))
      (by
        rw [card_insert_of_notMem, image_card hx]
        intro h
        obtain ⟨i, -, hi⟩ := Finset.mem_image.1 h
        exact htx i hi.symm)
      (by
        intro s hs
        rcases Finset.mem_insert.1 hs with rfl | hs
        · exact ht
        · obtain ⟨i, -, rfl⟩ := Finset.mem_image.1 hs
          exact hI i)
      (by
        intro s hs
        rcases Finset.mem_insert.1 hs with rfl | hs
        · rw [eval_add, eval_mul, eval_C, hc]
          field_simp
          ring
        · obtain ⟨i, -, rfl⟩ := Finset.mem_image.1 hs
          rw [eval_add, eval_mul, node_zero, mul_zero, add_zero, hm])
    refine ⟨ξ, hξ, ?_⟩
    rw [h, coeff_add_mul hp, ← node_eval, hc]
    have : (n.factorial : ℝ) ≠ 0 := by exact_mod_cast n.factorial_ne_zero
    field_simp

/-- Points where the derivative of `f` meets the derivative of a polynomial `q` that agrees with `f` on
the nodes, and with its derivative on one of them. -/
theorem deriv_points (hf : DifferentiableOn ℝ f (Icc a b)) {m : ℕ} {x : Fin (m + 1) → ℝ}
    (hx : Function.Injective x)
    (hI : ∀ i, x i ∈ Icc a b) {q : ℝ[X]} (hm : ∀ i, q.eval (x i) = f (x i)) (i : Fin (m + 1))
    (hd : derivWithin f (Icc a b) (x i) = (derivative q).eval (x i)) :
    ∃ S : Finset ℝ, S.card = m + 1 ∧ x i ∈ S ∧ (∀ s ∈ S, s ∈ Icc a b) ∧
      ∀ s ∈ S, derivWithin f (Icc a b) s = (derivative q).eval s := by
  classical
  obtain ⟨S, hS, hSI, hdis, hSz⟩ := rolle_step q hf (univ.image x) (image_card hx)
    (fun s hs => by obtain ⟨i, -, rfl⟩ := Finset.mem_image.1 hs; exact hI i)
    (fun s hs => by obtain ⟨i, -, rfl⟩ := Finset.mem_image.1 hs; exact (hm i).symm)
  have hni : x i ∉ S := Finset.disjoint_left.1 hdis (Finset.mem_image_of_mem x (mem_univ i))
  refine ⟨insert (x i) S, ?_, mem_insert_self _ _, ?_, ?_⟩
  · rw [card_insert_of_notMem hni, hS]
  · intro s hs
    rcases Finset.mem_insert.1 hs with rfl | hs
    · exact hI i
    · exact hSI s hs
  · intro s hs
    rcases Finset.mem_insert.1 hs with rfl | hs
    · exact hd
    · exact hSz s hs

/-- **Remainder of the derivative of the interpolant at a node.** -/
theorem interp_deriv (hab : a < b) (hf : ContDiffOn ℝ n f (Icc a b)) (hx : Function.Injective x)
    (hI : ∀ i, x i ∈ Icc a b) (hp : p.degree < n) (hm : ∀ i, p.eval (x i) = f (x i)) (i : Fin n) :
    ∃ ξ ∈ Icc a b, derivWithin f (Icc a b) (x i) - (derivative p).eval (x i)
      = iteratedDerivWithin n f (Icc a b) ξ / n.factorial * ∏ j ∈ univ.erase i, (x i - x j) := by
  classical
  obtain ⟨m, rfl⟩ : ∃ m, n = m + 1 := ⟨n - 1, by have := i.pos; omega⟩
  have hW := node_deriv_ne x hx i
  set c := (derivWithin f (Icc a b) (x i) - (derivative p).eval (x i)) / (derivative (node x)).eval (x i)
    with hc
  set q := p + C c * node x with hq
  obtain ⟨S, hS, -, hSI, hSz⟩ := deriv_points (q := q)
    (hf.differentiableOn (by exact_mod_cast Nat.succ_ne_zero m)) hx hI
    (fun j => by rw [hq, eval_add, eval_mul, node_zero, mul_zero, add_zero, hm]) i
    (by
      rw [hq, derivative_add, derivative_C_mul, eval_add, eval_mul, eval_C, hc]
      field_simp
      ring)
  obtain ⟨ξ, hξ, h⟩ := rolle_iter hab m (derivative q)
    (hf.derivWithin (uniqueDiffOn_Icc hab) (by norm_cast)) S hS hSI hSz
  refine ⟨ξ, hξ, ?_⟩
  have h2 : iteratedDerivWithin (m + 1) f (Icc a b) ξ = (m + 1).factorial * c := by
    rw [iteratedDerivWithin_succ', h, ← coeff_add_mul (x := x) hp c, ← hq,
      ← iterate_eval (natDegree_add_mul (x := x) hp c) ξ]
    rfl
  rw [h2, ← node_deriv, hc]
  have : ((m + 1).factorial : ℝ) ≠ 0 := by exact_mod_cast (m + 1).factorial_ne_zero
  field_simp

/-- **Remainder of the second derivative of the interpolant at a node.** -/
theorem interp_deriv2 (hab : a < b) (hf : ContDiffOn ℝ (n + 1) f (Icc a b)) (hx : Function.Injective x)
    (hI : ∀ i, x i ∈ Icc a b) (hp : p.degree < n) (hm : ∀ i, p.eval (x i) = f (x i)) (i : Fin n) :
    ∃ ξ ∈ Icc a b, ∃ η ∈ Icc a b,
      iteratedDerivWithin 2 f (Icc a b) (x i) - (derivative (derivative p)).eval (x i)
      = iteratedDerivWithin n f (Icc a b) ξ / n.factorial * (derivative (derivative (node x))).eval (x i)
        + 2 * (iteratedDerivWithin (n + 1) f (Icc a b) η / (n + 1).factorial)
          * ∏ j ∈ univ.erase i, (x i - x j) := by
  classical
  obtain ⟨ξ, hξ, h1⟩ := interp_deriv hab (hf.of_le (by norm_cast; omega)) hx hI hp hm i
  obtain ⟨m, rfl⟩ : ∃ m, n = m + 1 := ⟨n - 1, by have := i.pos; omega⟩
  have hW := node_deriv_ne x hx i
  rw [← node_deriv] at h1 ⊢
  set W := node x with hWdef
  set c := iteratedDerivWithin (m + 1) f (Icc a b) ξ / (m + 1).factorial with hc
  set e := iteratedDerivWithin 2 f (Icc a b) (x i) - (derivative (derivative p)).eval (x i)
    - c * (derivative (derivative W)).eval (x i) with he
  set d := e / (2 * (derivative W).eval (x i)) with hd
  set q := p + (C c + C d * (X - C (x i))) * W with hq
  have hq0 : ∀ j, q.eval (x j) = f (x j) := fun j => by
    rw [hq, eval_add, eval_mul, hWdef, node_zero, mul_zero, add_zero, hm]
  have hWz : W.eval (x i) = 0 := node_zero x i
  have hq1 : derivWithin f (Icc a b) (x i) = (derivative q).eval (x i) := by
    simp only [hq, derivative_add, derivative_mul, derivative_C, derivative_X, derivative_sub,
      eval_add, eval_mul, eval_sub, eval_C, eval_X, hWz, eval_zero, eval_one]
    linarith
  have hq2 : iteratedDerivWithin 2 f (Icc a b) (x i) = (derivative (derivative q)).eval (x i) := by
    simp only [hq, derivative_add, derivative_mul, derivative_C, derivative_X, derivative_sub,
      eval_add, eval_mul, eval_sub, eval_C, eval_X, hWz, eval_zero, eval_one, derivative_zero,
      derivative_one]
    have : 2 * d * (derivative W).eval (x i) = e := by
      rw [hd]; field_simp
    linarith
  have hu := uniqueDiffOn_Icc hab
  have hf1 : ContDiffOn ℝ (m + 1 : ℕ) (derivWithin f (Icc a b)) (Icc a b) :=
    hf.derivWithin hu (by norm_cast)
  obtain ⟨S, hS, hiS, hSI, hSz⟩ := deriv_points (q := q)
    (hf.differentiableOn (by exact_mod_cast Nat.succ_ne_zero (m + 1))) hx hI hq0 i hq1
  obtain ⟨S', hS', hSI', hdis, hSz'⟩ := rolle_step (derivative q)
    (hf1.differentiableOn (by exact_mod_cast Nat.succ_ne_zero m)) S hS hSI hSz
  have hni : x i ∉ S' := Finset.disjoint_left.1 hdis hiS
  have hf2 : ContDiffOn ℝ m (derivWithin (derivWithin f (Icc a b)) (Icc a b)) (Icc a b) :=
    hf1.derivWithin hu (by norm_cast)
  obtain ⟨η, hη, h2⟩ := rolle_iter hab m (derivative (derivative q)) hf2 (insert (x i) S')
    (by rw [card_insert_of_notMem hni, hS'])
    (by
      intro s hs
      rcases Finset.mem_insert.1 hs with rfl | hs
      · exact hI i
      · exact hSI' s hs)
    (by
      intro s hs
      rcases Finset.mem_insert.1 hs with rfl | hs
      · rw [← hq2, iteratedDerivWithin_succ', iteratedDerivWithin_one]
      · exact hSz' s hs)
  refine ⟨ξ, hξ, η, hη, ?_⟩
  have hdeg : q.natDegree ≤ m + 2 := by
    refine natDegree_add_le_of_degree_le ?_ ?_
    · exact natDegree_le_of_degree_le (hp.le.trans (by exact_mod_cast (by omega)))
    · refine natDegree_mul_le.trans ?_
      rw [hWdef, node_natDegree]
      have : (C c + C d * (X - C (x i))).natDegree ≤ 1 := by
        refine natDegree_add_le_of_degree_le (by simp) ?_
        exact (natDegree_C_mul_le _ _).trans (natDegree_X_sub_C_le _)
      omega
  have hco : q.coeff (m + 2) = d := by
    have e1 : q = p + (C (c - d * x i) * W + C d * (X * W)) := by
      rw [hq, C_sub, C_mul]; ring
    have e2 : p.coeff (m + 2) = 0 :=
      coeff_eq_zero_of_degree_lt (hp.trans (by exact_mod_cast (by omega)))
    have e3 : W.coeff (m + 2) = 0 :=
      coeff_eq_zero_of_natDegree_lt (by rw [hWdef, node_natDegree]; omega)
    have e4 : W.coeff (m + 1) = 1 := node_coeff x
    rw [e1, coeff_add, coeff_add, coeff_C_mul, coeff_C_mul, e2, e3, coeff_X_mul, e4]
    ring
  have h3 : iteratedDerivWithin (m + 1 + 1) f (Icc a b) η = (m + 2).factorial * d := by
    rw [iteratedDerivWithin_succ', iteratedDerivWithin_succ', h2, ← hco, ← iterate_eval hdeg η]
    rfl
  have hF : ((m + 1 + 1).factorial : ℝ) ≠ 0 := by exact_mod_cast (m + 2).factorial_ne_zero
  have h4 : iteratedDerivWithin (m + 1 + 1) f (Icc a b) η / ((m + 1 + 1).factorial : ℝ) = d := by
    rw [h3]; field_simp
  rw [h4]
  have : 2 * d * (derivative W).eval (x i) = e := by
    rw [hd]; field_simp
  linarith

end InterpError
end QMat
