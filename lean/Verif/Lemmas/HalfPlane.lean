import Mathlib.Analysis.Complex.PhragmenLindelof
import Mathlib.Analysis.Complex.Polynomial.Basic
import Mathlib.Tactic

/-!
# Polynomials in two variables by integer lists, and bounds in a half-plane
-/

namespace QMat.HalfPlane

open Complex Polynomial

section lists

variable {α : Type}

def ladd [Add α] : List α → List α → List α
  | [], y => y
  | x, [] => x
  | a :: x, b :: y => (a + b) :: ladd x y

def lsub [Zero α] [Sub α] : List α → List α → List α
  | x, [] => x
  | [], b :: y => (0 - b) :: lsub [] y
  | a :: x, b :: y => (a - b) :: lsub x y

def lmul [Zero α] [Add α] [Mul α] : List α → List α → List α
  | [], _ => []
  | a :: x, y => ladd (y.map (a * ·)) (0 :: lmul x y)

/-- Coefficients with even and with odd index. -/
def split : List α → List α × List α
  | [] => ([], [])
  | a :: l => let q := split l; (a :: q.2, q.1)

/-- Graeffe's step: the polynomial `p(x) p(-x)` of `x²`. -/
def graeffe [Zero α] [Add α] [Sub α] [Mul α] (p : List α) : List α :=
  let q := split p
  lsub (lmul q.1 q.1) (0 :: lmul q.2 q.2)

/-- Value of a polynomial whose coefficients are mapped by `φ`. -/
noncomputable def lev (φ : α → ℂ) (x : ℂ) : List α → ℂ
  | [] => 0
  | a :: l => φ a + x * lev φ x l

structure Hom [Zero α] [Add α] [Sub α] [Mul α] (φ : α → ℂ) : Prop where
  zero : φ 0 = 0
  add : ∀ a b, φ (a + b) = φ a + φ b
  sub : ∀ a b, φ (a - b) = φ a - φ b
  mul : ∀ a b, φ (a * b) = φ a * φ b

variable [Zero α] [Add α] [Sub α] [Mul α] {φ : α → ℂ} (h : Hom φ) (x : ℂ)
include h

theorem lev_add (p q : List α) : lev φ x (ladd p q) = lev φ x p + lev φ x q := by
  induction p generalizing q with
  | nil => simp [ladd, lev]
  | cons a p ih =>
    cases q with
    | nil => simp [ladd, lev]
    | cons b q => simp only [ladd, lev, h.add, ih]; ring

theorem lev_sub (p q : List α) : lev φ x (lsub p q) = lev φ x p - lev φ x q := by
  induction q generalizing p with
  | nil => cases p <;> simp [lsub, lev]
  | cons b q ih =>
    cases p with
    | nil => simp only [lsub, lev, h.sub, h.zero, ih]; ring
    | cons a p => simp only [lsub, lev, h.sub, ih]; ring

theorem lev_map (a : α) (p : List α) : lev φ x (p.map (a * ·)) = φ a * lev φ x p := by
  induction p with
  | nil => simp [lev]
  | cons b p ih => simp only [List.map_cons, lev, h.mul, ih]; ring

theorem lev_mul (p q : List α) : lev φ x (lmul p q) = lev φ x p * lev φ x q := by
  induction p with
  | nil => simp [lmul, lev]
  | cons a p ih => simp only [lmul, lev_add h, lev_map h, lev, h.zero, ih]; ring

omit h [Zero α] [Add α] [Sub α] [Mul α] in
theorem lev_split (p : List α) : lev φ x p = lev φ (x ^ 2) (split p).1 + x * lev φ (x ^ 2) (split p).2 := by
  induction p with
  | nil => simp [split, lev]
  | cons a p ih => simp only [split, lev, ih]; ring

theorem lev_graeffe (p : List α) : lev φ (x ^ 2) (graeffe p) = lev φ x p * lev φ (-x) p := by
  rw [graeffe, lev_sub h, lev_mul h, lev, h.zero, lev_mul h, lev_split x p, lev_split (-x) p, neg_sq]
  ring

theorem lev_graeffe_iterate {p : List α} (h0 : lev φ x p = 0) (K : ℕ) : lev φ (x ^ 2 ^ K) (graeffe^[K] p) = 0 := by
  induction K generalizing x p with
  | zero => simpa using h0
  | succ K ih =>
    rw [Function.iterate_succ_apply, pow_succ', pow_mul]
    exact ih (x ^ 2) (by rw [lev_graeffe h, h0, zero_mul])

omit x in
theorem lev_graeffe_zero (p : List α) (K : ℕ) : lev φ 0 (graeffe^[K] p) = lev φ 0 p ^ 2 ^ K := by
  induction K generalizing p with
  | zero => simp
  | succ K ih =>
    have h1 := lev_graeffe h 0 p
    rw [Function.iterate_succ_apply, ih, pow_succ', pow_mul]
    congr 1
    simpa [pow_two] using h1

end lists

/-- Polynomials with integer coefficients. -/
def LP := List ℤ

instance : Zero LP := ⟨([] : List ℤ)⟩
instance : Add LP := ⟨fun p q => ladd (α := ℤ) p q⟩
instance : Sub LP := ⟨fun p q => lsub (α := ℤ) p q⟩
instance : Mul LP := ⟨fun p q => lmul (α := ℤ) p q⟩

theorem hom_int : Hom (fun a : ℤ => (a : ℂ)) :=
  ⟨Int.cast_zero, Int.cast_add, Int.cast_sub, Int.cast_mul⟩

/-- Value of an integer polynomial. -/
noncomputable def pev (W : ℂ) (p : LP) : ℂ := lev (fun a : ℤ => (a : ℂ)) W p

theorem hom_pev (W : ℂ) : Hom (pev W) :=
  ⟨rfl, fun p q => lev_add hom_int W p q, fun p q => lev_sub hom_int W p q, fun p q => lev_mul hom_int W p q⟩

/-! ## Roots -/

section roots

variable {α : Type} {φ : α → ℂ}

noncomputable def lnorm (φ : α → ℂ) (t : ℝ) : List α → ℝ
  | [] => 0
  | a :: l => ‖φ a‖ + t * lnorm φ t l

theorem lnorm_nonneg {t : ℝ} (ht : 0 ≤ t) (l : List α) : 0 ≤ lnorm φ t l := by
  induction l with
  | nil => simp [lnorm]
  | cons a l ih => rw [lnorm]; positivity

theorem lnorm_mono {s t : ℝ} (hs : 0 ≤ s) (hst : s ≤ t) (l : List α) : lnorm φ s l ≤ lnorm φ t l := by
  induction l with
  | nil => simp [lnorm]
  | cons a l ih =>
    rw [lnorm, lnorm]
    exact add_le_add le_rfl (mul_le_mul hst ih (lnorm_nonneg hs l) (hs.trans hst))

theorem norm_lev_le (x : ℂ) (l : List α) : ‖lev φ x l‖ ≤ lnorm φ ‖x‖ l := by
  induction l with
  | nil => simp [lev, lnorm]
  | cons a l ih =>
    rw [lev, lnorm]
    refine (norm_add_le _ _).trans (add_le_add le_rfl ?_)
    rw [norm_mul]
    exact mul_le_mul_of_nonneg_left ih (norm_nonneg _)

/-- Where the first coefficient dominates there is no small root. -/
theorem root_large {a : α} {l : List α} (ha : φ a ≠ 0) {t : ℝ} (hl : t * lnorm φ t l ≤ ‖φ a‖) {x : ℂ}
    (hx : lev φ x (a :: l) = 0) : t ≤ ‖x‖ := by
  by_contra hlt
  push Not at hlt
  have h1 : ‖φ a‖ ≤ ‖x‖ * lnorm φ t l := by
    have : φ a = -(x * lev φ x l) := eq_neg_of_add_eq_zero_left hx
    rw [this, norm_neg, norm_mul]
    exact mul_le_mul_of_nonneg_left ((norm_lev_le x l).trans (lnorm_mono (norm_nonneg _) hlt.le l)) (norm_nonneg _)
  have h0 : 0 < ‖φ a‖ := norm_pos_iff.mpr ha
  have h2 : 0 ≤ lnorm φ t l := lnorm_nonneg ((norm_nonneg x).trans hlt.le) l
  rcases h2.eq_or_lt with h3 | h3
  · rw [← h3, mul_zero] at h1
    linarith
  · nlinarith

noncomputable def toPoly (φ : α → ℂ) : List α → ℂ[X]
  | [] => 0
  | a :: l => C (φ a) + X * toPoly φ l

theorem eval_toPoly (x : ℂ) (l : List α) : (toPoly φ l).eval x = lev φ x l := by
  induction l with
  | nil => simp [toPoly, lev]
  | cons a l ih => simp [toPoly, lev, ih]

theorem natDegree_toPoly (l : List α) : (toPoly φ l).natDegree ≤ l.length - 1 := by
  induction l with
  | nil => simp [toPoly]
  | cons a l ih =>
    rw [toPoly]
    refine (natDegree_add_le _ _).trans (max_le (by simp) ?_)
    cases l with
    | nil => simp [toPoly]
    | cons b l =>
      refine natDegree_mul_le.trans ?_
      rw [natDegree_X]
      simp only [List.length_cons, Nat.add_sub_cancel] at ih ⊢
      omega

/-- A polynomial without roots of modulus less than `1 / r` is not small in the unit disk. -/
theorem norm_lev_ge {l : List α} {n : ℕ} (hn : l.length ≤ n + 1) (h0 : lev φ 0 l ≠ 0) {r : ℝ} (hr0 : 0 < r) (hr : r ≤ 1)
    (hroot : ∀ x, lev φ x l = 0 → r⁻¹ ≤ ‖x‖) {x : ℂ} (hx : ‖x‖ ≤ 1) : (1 - r) ^ n * ‖lev φ 0 l‖ ≤ ‖lev φ x l‖ := by
  set P := toPoly φ l with hP
  have hdeg : P.natDegree ≤ n := (natDegree_toPoly l).trans (by omega)
  have hP0 : P ≠ 0 := fun h => h0 (by rw [← eval_toPoly, ← hP, h, eval_zero])
  have hs : P.Splits := IsAlgClosed.splits P
  have hev : ∀ y, ‖lev φ y l‖ = ‖P.leadingCoeff‖ * (P.roots.map fun a => ‖y - a‖).prod := by
    intro y
    rw [← eval_toPoly, ← hP, hs.eval_eq_prod_roots, norm_mul]
    congr 1
    induction P.roots using Multiset.induction_on with
    | empty => simp
    | cons a s ih => rw [Multiset.map_cons, Multiset.prod_cons, norm_mul, ih, Multiset.map_cons, Multiset.prod_cons]
  have hcard : Multiset.card P.roots ≤ n := (card_roots' P).trans hdeg
  have hmem : ∀ a ∈ P.roots, r⁻¹ ≤ ‖a‖ := fun a ha => hroot a (by
    rw [← eval_toPoly, ← hP]; exact (mem_roots hP0).mp ha)
  have key : ∀ s : Multiset ℂ, (∀ a ∈ s, r⁻¹ ≤ ‖a‖) →
      (1 - r) ^ Multiset.card s * (s.map fun a => ‖(0:ℂ) - a‖).prod ≤ (s.map fun a => ‖x - a‖).prod := by
    intro s
    induction s using Multiset.induction_on with
    | empty => simp
    | cons a s ih =>
      intro hs
      simp only [Multiset.card_cons, Multiset.map_cons, Multiset.prod_cons]
      have h1 := ih fun b hb => hs b (Multiset.mem_cons_of_mem hb)
      have h2 : (1 - r) * ‖(0:ℂ) - a‖ ≤ ‖x - a‖ := by
        have h3 := hs a (Multiset.mem_cons_self a s)
        have h4 : ‖a‖ - ‖x‖ ≤ ‖x - a‖ := by rw [norm_sub_rev]; exact norm_sub_norm_le _ _
        have h5 : 1 ≤ r * ‖a‖ := by rwa [inv_le_iff_one_le_mul₀' hr0] at h3
        rw [zero_sub, norm_neg]
        linarith
      have h6 : 0 ≤ (s.map fun a => ‖(0:ℂ) - a‖).prod := Multiset.prod_nonneg fun b hb => by
        obtain ⟨c, -, rfl⟩ := Multiset.mem_map.mp hb
        exact norm_nonneg _
      calc _ = ((1 - r) * ‖(0:ℂ) - a‖) * ((1 - r) ^ Multiset.card s * (s.map fun a => ‖(0:ℂ) - a‖).prod) := by
            rw [pow_succ]; ring
        _ ≤ _ := mul_le_mul h2 h1 (mul_nonneg (pow_nonneg (by linarith) _) h6) (norm_nonneg _)
  rw [hev, hev]
  have h1 := key _ hmem
  have h2 : (1 - r) ^ n ≤ (1 - r) ^ Multiset.card P.roots := pow_le_pow_of_le_one (by linarith) (by linarith) hcard
  have h6 : 0 ≤ (P.roots.map fun a => ‖(0:ℂ) - a‖).prod := Multiset.prod_nonneg fun b hb => by
    obtain ⟨c, -, rfl⟩ := Multiset.mem_map.mp hb
    exact norm_nonneg _
  calc _ = ‖P.leadingCoeff‖ * ((1 - r) ^ n * (P.roots.map fun a => ‖(0:ℂ) - a‖).prod) := by ring
    _ ≤ _ := mul_le_mul_of_nonneg_left ((mul_le_mul_of_nonneg_right h2 h6).trans h1) (norm_nonneg _)

end roots

/-! ## The maximum principle -/

/-- A polynomial of degree at most `n`, bounded on the imaginary axis by a function without zeros in the left half-plane
that grows at least like `W ^ n`. -/
theorem left_half_plane {P : ℂ[X]} {R : ℂ → ℂ} (hR : Differentiable ℂ R) {n : ℕ} (hP : P.natDegree ≤ n) {δ : ℝ}
    (hδ : 0 < δ) (hRδ : ∀ W : ℂ, W.re ≤ 0 → δ ≤ ‖R W‖) (hRn : ∀ W : ℂ, W.re ≤ 0 → ‖W‖ ^ n ≤ ‖R W‖)
    (h : ∀ y : ℝ, ‖P.eval (y * I)‖ ≤ ‖R (y * I)‖) {W : ℂ} (hW : W.re ≤ 0) : ‖P.eval W‖ ≤ ‖R W‖ := by
  set f : ℂ → ℂ := fun z => P.eval (-z) / R (-z) with hf
  set S := ∑ i ∈ Finset.range (n + 1), ‖P.coeff i‖ with hS
  have hS0 : 0 ≤ S := Finset.sum_nonneg fun _ _ => norm_nonneg _
  have hPb : ∀ W : ℂ, ‖P.eval W‖ ≤ S * max 1 (‖W‖ ^ n) := by
    intro W
    rw [eval_eq_sum_range' (Nat.lt_succ_of_le hP), hS, Finset.sum_mul]
    refine (norm_sum_le _ _).trans (Finset.sum_le_sum fun i hi => ?_)
    rw [norm_mul, norm_pow]
    refine mul_le_mul_of_nonneg_left ?_ (norm_nonneg _)
    rcases le_total ‖W‖ 1 with h1 | h1
    · exact (pow_le_one₀ (norm_nonneg _) h1).trans (le_max_left _ _)
    · exact (pow_le_pow_right₀ h1 (by simpa [Nat.lt_succ_iff] using hi)).trans (le_max_right _ _)
  have hbound : ∀ z : ℂ, 0 ≤ z.re → ‖f z‖ ≤ S * max δ⁻¹ 1 := by
    intro z hz
    have hz' : (-z).re ≤ 0 := by simpa using hz
    have h0 : 0 < ‖R (-z)‖ := hδ.trans_le (hRδ _ hz')
    rw [hf]
    dsimp only
    rw [norm_div, div_le_iff₀ h0]
    refine (hPb _).trans ?_
    rw [mul_assoc]
    refine mul_le_mul_of_nonneg_left (max_le ?_ ?_) hS0
    · calc (1:ℝ) = δ⁻¹ * δ := (inv_mul_cancel₀ hδ.ne').symm
        _ ≤ max δ⁻¹ 1 * ‖R (-z)‖ := mul_le_mul (le_max_left _ _) (hRδ _ hz') hδ.le (by positivity)
    · calc ‖-z‖ ^ n ≤ 1 * ‖R (-z)‖ := by rw [one_mul]; exact hRn _ hz'
        _ ≤ _ := mul_le_mul_of_nonneg_right (le_max_right _ _) h0.le
  have hne : ∀ z : ℂ, 0 ≤ z.re → R (-z) ≠ 0 := fun z hz =>
    norm_pos_iff.mp (hδ.trans_le (hRδ _ (by simpa using hz)))
  have hdiff : DiffContOnCl ℂ f {z | 0 < z.re} := by
    have hd : ∀ z : ℂ, 0 ≤ z.re → DifferentiableAt ℂ f z := fun z hz =>
      ((P.differentiable.comp differentiable_neg) z).div ((hR.comp differentiable_neg) z) (hne z hz)
    constructor
    · exact fun z hz => (hd z (le_of_lt hz)).differentiableWithinAt
    · intro z hz
      rw [Complex.closure_setOfPred_lt_re] at hz
      exact (hd z hz).continuousAt.continuousWithinAt
  have key := PhragmenLindelof.right_half_plane_of_bounded_on_real (f := f) (C := 1) (z := -W) hdiff
    ⟨0, two_pos, 0, by
      refine Asymptotics.IsBigO.of_bound (S * max δ⁻¹ 1) ?_
      filter_upwards [Filter.mem_inf_of_right (Filter.mem_principal_self _)] with z hz
      simpa using hbound z (le_of_lt hz)⟩
    ⟨S * max δ⁻¹ 1, by
      rw [Filter.eventually_map]
      filter_upwards [Filter.eventually_ge_atTop 0] with x hx
      exact hbound x (by simpa using hx)⟩
    (fun y => by
      have h1 := h (-y)
      have e : ((-y : ℝ) : ℂ) * I = -(y * I) := by push_cast; ring
      rw [e] at h1
      rw [hf]
      dsimp only
      rw [norm_div]
      exact div_le_one_of_le₀ h1 (norm_nonneg _)) (by simpa using hW)
  rw [hf] at key
  dsimp only at key
  rw [neg_neg, norm_div, div_le_one (hδ.trans_le (hRδ _ hW))] at key
  exact key

end QMat.HalfPlane
