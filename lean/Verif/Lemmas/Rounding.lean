import Verif.Model.Float
import Mathlib.Algebra.Order.BigOperators.Ring.Finset
import Mathlib.Tactic

/-!
# Calculus of relative errors
-/

namespace QMat

open Finset

/-- The factor `φ` is between `exp (-ε)` and `exp ε`. -/
def Within (ε φ : ℝ) : Prop := 0 < φ ∧ |Real.log φ| ≤ ε

namespace Within

variable {ε ε' φ φ' : ℝ}

theorem one (h : 0 ≤ ε) : Within ε 1 := ⟨one_pos, by simpa⟩

theorem nonneg (h : Within ε φ) : 0 ≤ ε := (abs_nonneg _).trans h.2

theorem ne (h : Within ε φ) : φ ≠ 0 := h.1.ne'

theorem mono (h : Within ε φ) (hle : ε ≤ ε') : Within ε' φ := ⟨h.1, h.2.trans hle⟩

theorem mul (h : Within ε φ) (h' : Within ε' φ') : Within (ε + ε') (φ * φ') := by
  refine ⟨mul_pos h.1 h'.1, ?_⟩
  rw [Real.log_mul h.ne h'.ne]
  exact (abs_add_le _ _).trans (add_le_add h.2 h'.2)

theorem inv (h : Within ε φ) : Within ε φ⁻¹ := ⟨inv_pos.2 h.1, by rw [Real.log_inv, abs_neg]; exact h.2⟩

theorem div (h : Within ε φ) (h' : Within ε' φ') : Within (ε + ε') (φ / φ') := by
  rw [div_eq_mul_inv]; exact h.mul h'.inv

theorem prod {ι : Type*} {s : Finset ι} {φ : ι → ℝ} {ε : ι → ℝ} (h : ∀ i ∈ s, Within (ε i) (φ i)) :
    Within (∑ i ∈ s, ε i) (∏ i ∈ s, φ i) := by
  classical
  induction s using Finset.induction with
  | empty => simpa using one le_rfl
  | insert i s hi ih =>
    rw [Finset.sum_insert hi, Finset.prod_insert hi]
    exact (h i (by simp)).mul (ih fun j hj => h j (by simp [hj]))

theorem le (h : Within ε φ) : φ ≤ Real.exp ε := by
  rw [← Real.exp_log h.1]; exact Real.exp_le_exp.2 (le_of_abs_le h.2)

theorem ge (h : Within ε φ) : Real.exp (-ε) ≤ φ := by
  rw [← Real.exp_log h.1]; exact Real.exp_le_exp.2 (neg_le_of_abs_le h.2)

theorem of_exp {e : ℝ} (h : |e| ≤ ε) : Within ε (Real.exp e) := ⟨Real.exp_pos _, by rwa [Real.log_exp]⟩

theorem abs_sub_one_le (h : Within ε φ) : |φ - 1| ≤ Real.exp ε - 1 := by
  have h1 := h.le
  have h2 := h.ge
  have h3 := Real.add_one_le_exp ε
  have h4 := Real.add_one_le_exp (-ε)
  have h5 : Real.exp (-ε) * Real.exp ε = 1 := by rw [← Real.exp_add]; simp
  rw [abs_le]
  constructor
  · nlinarith [Real.exp_pos ε, Real.exp_pos (-ε), h.nonneg]
  · linarith

end Within

namespace Rounding

variable (R : Rounding) {ι : Type*} [DecidableEq ι]

/-- The bound of the logarithm of a rounding factor. -/
noncomputable def ω : ℝ := -Real.log (1 - R.u)

theorem ω_nonneg : 0 ≤ R.ω := by
  have := Real.log_nonpos (by linarith [R.u_lt_one]) (by linarith [R.u_nonneg] : 1 - R.u ≤ 1)
  unfold ω; linarith

theorem exp_ω : Real.exp R.ω = 1 / (1 - R.u) := by
  have : 0 < 1 - R.u := by linarith [R.u_lt_one]
  rw [ω, Real.exp_neg, Real.exp_log this, one_div]

theorem within_of_err {u φ : ℝ} (hu : u < 1) (h : |φ - 1| ≤ u) : Within (-Real.log (1 - u)) φ := by
  have h1 := abs_le.1 h
  have hpos : 0 < φ := by linarith
  have h0 : 0 ≤ u := (abs_nonneg _).trans h
  refine ⟨hpos, abs_le.2 ⟨?_, ?_⟩⟩
  · rw [neg_neg]
    exact Real.log_le_log (by linarith) (by linarith)
  · rw [← Real.log_inv]
    refine Real.log_le_log hpos ?_
    rw [le_inv_comm₀ hpos (by linarith), ]
    rw [le_inv_comm₀ (by linarith) hpos]
    have : φ * (1 - u) ≤ 1 := by nlinarith
    rw [← one_div, le_div_iff₀ (by linarith)]
    exact this

theorem fl_eq (x : ℝ) : ∃ φ, Within R.ω φ ∧ R.fl x = x * φ := by
  by_cases hx : x = 0
  · refine ⟨1, .one R.ω_nonneg, ?_⟩
    have := R.err x
    rw [hx, abs_zero, mul_zero, sub_zero, abs_nonpos_iff] at this
    rw [hx, this, zero_mul]
  · refine ⟨R.fl x / x, within_of_err R.u_lt_one ?_, by field_simp⟩
    have : R.fl x / x - 1 = (R.fl x - x) / x := by field_simp
    rw [this, abs_div, div_le_iff₀ (abs_pos.2 hx)]
    exact R.err x

theorem fl_zero : R.fl 0 = 0 := by
  obtain ⟨φ, -, h⟩ := R.fl_eq 0
  simpa using h

theorem fl_eq_zero {x : ℝ} : R.fl x = 0 ↔ x = 0 := by
  obtain ⟨φ, h1, h⟩ := R.fl_eq x
  rw [h, mul_eq_zero, or_iff_left h1.ne]

variable {R}

theorem Reduce.card_pos {op : ℝ → ℝ → ℝ} {f : ι → ℝ} {s : Finset ι} {a : ℝ} (h : R.Reduce op f s a) : 1 ≤ s.card := by
  induction h with
  | single i => simp
  | combine hst hs ht ihs iht => rw [card_union_of_disjoint hst]; omega

/-- Sums in any order: every entry gets a factor for at most `card s - 1` roundings. -/
theorem Reduce.sum {f : ι → ℝ} {s : Finset ι} {a : ℝ} (h : R.Reduce (· + ·) f s a) :
    ∃ φ : ι → ℝ, (∀ i, Within ((s.card - 1) * R.ω) (φ i)) ∧ a = ∑ i ∈ s, f i * φ i := by
  induction h with
  | single i => exact ⟨fun _ => 1, fun _ => by simpa using Within.one le_rfl, by simp⟩
  | @combine s t a b hst hs ht ihs iht =>
    obtain ⟨φ, hφ, rfl⟩ := ihs
    obtain ⟨ψ, hψ, rfl⟩ := iht
    obtain ⟨χ, hχ, he⟩ := R.fl_eq (∑ i ∈ s, f i * φ i + ∑ i ∈ t, f i * ψ i)
    have h1 : (1 : ℝ) ≤ s.card := by exact_mod_cast hs.card_pos
    have h2 : (1 : ℝ) ≤ t.card := by exact_mod_cast ht.card_pos
    refine ⟨fun i => (if i ∈ s then φ i else ψ i) * χ, fun i => ?_, ?_⟩
    · rw [card_union_of_disjoint hst, Nat.cast_add]
      have h3 := R.ω_nonneg
      dsimp only
      split_ifs
      · refine ((hφ i).mul hχ).mono ?_
        nlinarith
      · refine ((hψ i).mul hχ).mono ?_
        nlinarith
    · rw [he, add_mul, Finset.sum_mul, Finset.sum_mul, Finset.sum_union hst]
      congr 1
      · refine Finset.sum_congr rfl fun i hi => ?_
        dsimp only
        rw [if_pos hi]; ring
      · refine Finset.sum_congr rfl fun i hi => ?_
        dsimp only
        rw [if_neg (Finset.disjoint_right.1 hst hi)]; ring

/-- Products in any order. -/
theorem Reduce.prod {f : ι → ℝ} {s : Finset ι} {a : ℝ} (h : R.Reduce (· * ·) f s a) :
    ∃ φ, Within ((s.card - 1) * R.ω) φ ∧ a = (∏ i ∈ s, f i) * φ := by
  induction h with
  | single i => exact ⟨1, by simpa using Within.one le_rfl, by simp⟩
  | @combine s t a b hst hs ht ihs iht =>
    obtain ⟨φ, hφ, rfl⟩ := ihs
    obtain ⟨ψ, hψ, rfl⟩ := iht
    obtain ⟨χ, hχ, he⟩ := R.fl_eq ((∏ i ∈ s, f i) * φ * ((∏ i ∈ t, f i) * ψ))
    refine ⟨φ * ψ * χ, ?_, ?_⟩
    · refine ((hφ.mul hψ).mul hχ).mono (le_of_eq ?_)
      rw [card_union_of_disjoint hst, Nat.cast_add]
      ring
    · rw [he, Finset.prod_union hst]; ring

/-- Dot products in any order. -/
theorem DotReduce.sum {x y : ι → ℝ} {s : Finset ι} {a : ℝ} (h : R.DotReduce x y s a) :
    1 ≤ s.card ∧ ∃ φ : ι → ℝ, (∀ i, Within (s.card * R.ω) (φ i)) ∧ a = ∑ i ∈ s, x i * y i * φ i := by
  induction h with
  | single i =>
    obtain ⟨φ, hφ, he⟩ := R.fl_eq (x i * y i)
    exact ⟨by simp, fun _ => φ, fun _ => by simpa using hφ, by simp [he]⟩
  | @combine s t a b hst hs ht ihs iht =>
    obtain ⟨h1, φ, hφ, rfl⟩ := ihs
    obtain ⟨h2, ψ, hψ, rfl⟩ := iht
    obtain ⟨χ, hχ, he⟩ := R.fl_eq (∑ i ∈ s, x i * y i * φ i + ∑ i ∈ t, x i * y i * ψ i)
    have h1' : (1 : ℝ) ≤ s.card := by exact_mod_cast h1
    have h2' : (1 : ℝ) ≤ t.card := by exact_mod_cast h2
    refine ⟨by rw [card_union_of_disjoint hst]; omega, fun i => (if i ∈ s then φ i else ψ i) * χ, fun i => ?_, ?_⟩
    · rw [card_union_of_disjoint hst, Nat.cast_add]
      have h3 := R.ω_nonneg
      dsimp only
      split_ifs
      · refine ((hφ i).mul hχ).mono ?_
        nlinarith
      · refine ((hψ i).mul hχ).mono ?_
        nlinarith
    · rw [he, add_mul, Finset.sum_mul, Finset.sum_mul, Finset.sum_union hst]
      congr 1
      · refine Finset.sum_congr rfl fun i hi => ?_
        dsimp only
        rw [if_pos hi]; ring
      · refine Finset.sum_congr rfl fun i hi => ?_
        dsimp only
        rw [if_neg (Finset.disjoint_right.1 hst hi)]; ring
  | @fma s a i hi hs ihs =>
    obtain ⟨h1, φ, hφ, rfl⟩ := ihs
    obtain ⟨χ, hχ, he⟩ := R.fl_eq (∑ i ∈ s, x i * y i * φ i + x i * y i)
    have h3 := R.ω_nonneg
    refine ⟨by rw [card_insert_of_notMem hi]; omega, fun j => (if j ∈ s then φ j else 1) * χ, fun j => ?_, ?_⟩
    · rw [card_insert_of_notMem hi, Nat.cast_add, Nat.cast_one]
      dsimp only
      split_ifs
      · refine ((hφ j).mul hχ).mono ?_
        nlinarith
      · refine ((Within.one (le_refl 0)).mul hχ).mono ?_
        have : (0 : ℝ) ≤ s.card := by positivity
        nlinarith
    · rw [he, add_mul, Finset.sum_mul, Finset.sum_insert hi]
      dsimp only
      rw [if_neg hi, add_comm]
      congr 1
      · ring
      · refine Finset.sum_congr rfl fun j hj => ?_
        rw [if_pos hj]; ring

variable [Fintype ι]

theorem NpSum.sum {f : ι → ℝ} {a : ℝ} (h : R.NpSum f a) (hn : 0 < Fintype.card ι) :
    ∃ φ : ι → ℝ, (∀ i, Within ((Fintype.card ι - 1) * R.ω) (φ i)) ∧ a = ∑ i, f i * φ i := by
  rcases h with ⟨h, -⟩ | h
  · exact absurd (Fintype.card_eq_zero_iff.2 h) hn.ne'
  · exact h.sum

theorem NpProd.prod {f : ι → ℝ} {a : ℝ} (h : R.NpProd f a) (hn : 0 < Fintype.card ι) :
    ∃ φ, Within ((Fintype.card ι - 1) * R.ω) φ ∧ a = (∏ i, f i) * φ := by
  rcases h with ⟨h, -⟩ | h
  · exact absurd (Fintype.card_eq_zero_iff.2 h) hn.ne'
  · exact h.prod

theorem NpDot.sum {x y : ι → ℝ} {a : ℝ} (h : R.NpDot x y a) :
    ∃ φ : ι → ℝ, (∀ i, Within (Fintype.card ι * R.ω) (φ i)) ∧ a = ∑ i, x i * y i * φ i := by
  rcases h with ⟨h, rfl⟩ | h
  · exact ⟨fun _ => 1, fun i => (h.false i).elim, by simp⟩
  · exact h.sum.2

/-- There is always a result. -/
theorem Reduce.exists (op : ℝ → ℝ → ℝ) (f : ι → ℝ) {s : Finset ι} (hs : s.Nonempty) : ∃ a, R.Reduce op f s a := by
  induction hs using Finset.Nonempty.cons_induction with
  | singleton i => exact ⟨_, .single i⟩
  | cons i s hi hs ih =>
    obtain ⟨a, ha⟩ := ih
    exact ⟨_, by rw [Finset.cons_eq_insert, Finset.insert_eq]; exact .combine (by simpa) (.single i) ha⟩

theorem NpSum.exists (f : ι → ℝ) : ∃ a, R.NpSum f a := by
  rcases isEmpty_or_nonempty ι with h | h
  · exact ⟨0, .inl ⟨h, rfl⟩⟩
  · obtain ⟨a, ha⟩ := Reduce.exists (R := R) (· + ·) f Finset.univ_nonempty
    exact ⟨a, .inr ha⟩

theorem NpProd.exists (f : ι → ℝ) : ∃ a, R.NpProd f a := by
  rcases isEmpty_or_nonempty ι with h | h
  · exact ⟨1, .inl ⟨h, rfl⟩⟩
  · obtain ⟨a, ha⟩ := Reduce.exists (R := R) (· * ·) f Finset.univ_nonempty
    exact ⟨a, .inr ha⟩

theorem DotReduce.exists (x y : ι → ℝ) {s : Finset ι} (hs : s.Nonempty) : ∃ a, R.DotReduce x y s a := by
  induction hs using Finset.Nonempty.cons_induction with
  | singleton i => exact ⟨_, .single i⟩
  | cons i s hi hs ih =>
    obtain ⟨a, ha⟩ := ih
    exact ⟨_, by rw [Finset.cons_eq_insert]; exact .fma hi ha⟩

theorem NpDot.exists (x y : ι → ℝ) : ∃ a, R.NpDot x y a := by
  rcases isEmpty_or_nonempty ι with h | h
  · exact ⟨0, .inl ⟨h, rfl⟩⟩
  · obtain ⟨a, ha⟩ := DotReduce.exists (R := R) x y Finset.univ_nonempty
    exact ⟨a, .inr ha⟩

end Rounding

end QMat
