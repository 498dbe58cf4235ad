import Verif.Lemmas.FloatNum
import Verif.Lemmas.RoundingLagrange
import Verif.Props.Algebraic
import Verif.Props.FloatSDC

/-!
# C103: `lduFactorization` in rounded arithmetic
-/

namespace QMat

open Finset Matrix

variable {n : ℕ} {R : Rounding}

/-- The recurrences have one solution. -/
theorem LDUInv.unique {A : Matrix (Fin n) (Fin n) ℝ} {s t : LDUState n} (hs : LDUInv A n s) (ht : LDUInv A n t) : s = t := by
  have key : ∀ m : ℕ, ∀ i : Fin n, (i : ℕ) < m → s.D i i = t.D i i ∧ ∀ j, i < j → s.L j i = t.L j i ∧ s.U i j = t.U i j := by
    intro m
    induction m with
    | zero => intro i hi; omega
    | succ m ih =>
      intro i hi
      have hdot : ∀ r c, i ≤ r → i ≤ c → lduDot s i r c = lduDot t i r c := fun r c hr hc => lduDot_congr
        (fun k hk => ((ih k (by have := Fin.lt_def.1 hk; omega)).2 r (hk.trans_le hr)).1)
        (fun k hk => (ih k (by have := Fin.lt_def.1 hk; omega)).1)
        (fun k hk => ((ih k (by have := Fin.lt_def.1 hk; omega)).2 c (hk.trans_le hc)).2)
      have hD : s.D i i = t.D i i := by rw [hs.D i i.isLt, ht.D i i.isLt, hdot i i le_rfl le_rfl]
      refine ⟨hD, fun j hj => ⟨?_, ?_⟩⟩
      · rw [hs.L i j i.isLt hj, ht.L i j i.isLt hj, hD, hdot j i hj.le le_rfl]
      · rw [hs.U i j i.isLt hj, ht.U i j i.isLt hj, hD, hdot i j le_rfl hj.le]
  obtain ⟨L, D, U⟩ := s
  obtain ⟨L', D', U'⟩ := t
  have h1 : L = L' := by
    ext a b
    rcases lt_trichotomy a b with h | h | h
    · exact (hs.Lzero a b h).trans (ht.Lzero a b h).symm
    · subst h; exact (hs.Ldiag a).trans (ht.Ldiag a).symm
    · exact ((key n b b.isLt).2 a h).1
  have h2 : D = D' := by
    ext a b
    by_cases h : a = b
    · subst h; exact (key n a a.isLt).1
    · exact (hs.diag a b h).trans (ht.diag a b h).symm
  have h3 : U = U' := by
    ext a b
    rcases lt_trichotomy a b with h | h | h
    · exact ((key n a a.isLt).2 b h).2
    · subst h; exact (hs.Udiag a).trans (ht.Udiag a).symm
    · exact (hs.Uzero a b h).trans (ht.Uzero a b h).symm
  rw [h1, h2, h3]

/-- Terms up to the pivot. -/
theorem ldu_terms {f : Fin n → ℝ} {i : Fin n} (hz : ∀ k, i < k → f k = 0) :
    ∑ k, f k = ∑ k ∈ univ.filter (fun k => k < i), f k + f i := by
  rw [← Finset.sum_filter_add_sum_filter_not Finset.univ (fun k => k < i)]
  congr 1
  refine Finset.sum_eq_single i (fun k hk hne => ?_) (by simp)
  exact hz k (lt_of_le_of_ne (by simpa using hk) (Ne.symm hne))

/-- A rounded difference, divided by a pivot or not, as an exact equation with a perturbed right-hand side. -/
theorem ldu_perturb {m : ℕ} {i : Fin n} {f φ : Fin n → ℝ} {a v p g : ℝ} (hg : g = Real.exp (m * R.ω) - 1)
    (hφ : ∀ k, Within (m * R.ω) (φ k)) (hv : v = ∑ k ∈ univ.filter (fun k => k < i), f k * φ k) {ψ : ℝ} (hψ : Within (m * R.ω) ψ)
    (hp : p = (a - v) * ψ) :
    |∑ k ∈ univ.filter (fun k => k < i), f k + p - a| ≤ g * (∑ k ∈ univ.filter (fun k => k < i), |f k| + |p|) := by
  have e : ∑ k ∈ univ.filter (fun k => k < i), f k + p - a = ∑ k ∈ univ.filter (fun k => k < i), f k * (1 - φ k) + p * (1 - ψ⁻¹) := by
    have h1 : p * ψ⁻¹ = a - v := by rw [hp, mul_assoc, mul_inv_cancel₀ hψ.ne, mul_one]
    have h2 : ∑ k ∈ univ.filter (fun k => k < i), f k * (1 - φ k) = ∑ k ∈ univ.filter (fun k => k < i), f k - v := by
      rw [hv, ← Finset.sum_sub_distrib]
      exact Finset.sum_congr rfl fun k _ => by ring
    rw [h2, mul_sub, mul_one, h1]
    ring
  have hw : ∀ {φ}, Within (m * R.ω) φ → ∀ x : ℝ, |x * (1 - φ)| ≤ g * |x| := fun h x => by
    rw [abs_mul, abs_sub_comm, mul_comm, hg]
    exact mul_le_mul_of_nonneg_right h.abs_sub_one_le (abs_nonneg _)
  rw [e, mul_add, Finset.mul_sum]
  refine (abs_add_le _ _).trans (add_le_add ((Finset.abs_sum_le_sum_abs _ _).trans (Finset.sum_le_sum fun k _ => hw (hφ k) _)) (hw hψ.inv _))

/-- C103: `lduFactorization` in rounded arithmetic, with sums in any order: the result has the shape of the factors, and, if no pivot that is
divided by vanishes, it is exactly the factorization of a matrix whose entries differ from those of `A` by at most `γ (|L| |D| |U|)`. -/
theorem C103_backward (A : Matrix (Fin n) (Fin n) ℝ) (s : LDUState n) (h : R.LduFactorization A s) (hu : ((n + 3 : ℕ) : ℝ) * R.u < 1) :
    (∀ i, s.L i i = 1) ∧ (∀ i j, i < j → s.L i j = 0) ∧ (∀ i, s.U i i = 1) ∧ (∀ i j, j < i → s.U i j = 0) ∧ (∀ i j, i ≠ j → s.D i j = 0) ∧
    ((∀ i : Fin n, (i : ℕ) + 1 < n → s.D i i ≠ 0) → ∃ A', lduFactorization A' = .ok s ∧ s.L * s.D * s.U = A' ∧
      ∀ i j, |A' i j - A i j| ≤ Spec.gamma R.u (n + 3) * ∑ k, |s.L i k| * |s.D k k| * |s.U k j|) := by
  have hi := h.inv
  refine ⟨hi.Ldiag, hi.Lzero, hi.Udiag, hi.Uzero, hi.diag, fun hp => ?_⟩
  set f : Fin n → Fin n → Fin n → ℝ := fun a b k => s.L a k * s.D k k * s.U k b with hf
  set A' : Matrix (Fin n) (Fin n) ℝ := fun a b => ∑ k, f a b k with hA'
  have hlo : ∀ {a b : Fin n} k, a < k → f a b k = 0 := fun k hk => by simp only [hf]; rw [hi.Lzero _ k hk]; ring
  have hro : ∀ {a b : Fin n} k, b < k → f a b k = 0 := fun k hk => by simp only [hf]; rw [hi.Uzero k _ hk]; ring
  have hdot : ∀ i a b, lduDot s i a b = ∑ k ∈ univ.filter (fun k => k < i), f a b k := fun _ _ _ => rfl
  have hpiv : ∀ {i j : Fin n}, i < j → s.D i i ≠ 0 := fun {i j} hij => hp i (by have := Fin.lt_def.1 hij; omega)
  have hinv : LDUInv A' n s := by
    refine ⟨hi.diag, hi.Ldiag, hi.Udiag, hi.Lzero, hi.Uzero, fun i _ => ?_, fun i j _ hij => ?_, fun i j _ hij => ?_⟩
    · rw [hdot, hA']
      simp only
      rw [ldu_terms (i := i) fun k hk => hlo k hk]
      simp [hf, hi.Ldiag, hi.Udiag]
    · rw [hdot, hA']
      simp only
      rw [ldu_terms (i := i) fun k hk => hro k hk, add_sub_cancel_left, eq_div_iff (hpiv hij)]
      simp [hf, hi.Udiag]
    · rw [hdot, hA']
      simp only
      rw [ldu_terms (i := i) fun k hk => hlo k hk, add_sub_cancel_left, eq_div_iff (hpiv hij)]
      simp [hf, hi.Ldiag]
      ring
  obtain ⟨s', hs', hinv'⟩ := ldu_inv A'
  have hss := hinv'.unique hinv
  subst hss
  refine ⟨A', hs', ldu_prod hinv' hp, fun a b => ?_⟩
  have hω := R.ω_nonneg
  have hgam : Real.exp ((n + 3 : ℕ) * R.ω) - 1 ≤ Spec.gamma R.u (n + 3) := R.exp_sub_one_le hu
  have habs : ∀ a b k, |f a b k| = |s'.L a k| * |s'.D k k| * |s'.U k b| := fun a b k => by simp only [hf, abs_mul]
  have hfin : |A' a b - A a b| ≤ (Real.exp ((n + 3 : ℕ) * R.ω) - 1) * ∑ k, |f a b k| := by
    have hm : ∀ {φ}, Within ((n + 1) * R.ω) φ → Within ((n + 3 : ℕ) * R.ω) φ := fun h => h.mono (by push_cast; linarith)
    have h2 : ∀ {φ}, Within R.ω φ → Within ((n + 3 : ℕ) * R.ω) φ := fun h => h.mono (by
      push_cast
      have : (0:ℝ) ≤ n * R.ω := by positivity
      linarith)
    have h3 : ∀ {φ ψ}, Within R.ω φ → Within R.ω ψ → Within ((n + 3 : ℕ) * R.ω) (φ * ψ) := fun h h' => (h.mul h').mono (by
      push_cast
      have : (0:ℝ) ≤ n * R.ω := by positivity
      linarith)
    rcases lt_trichotomy a b with hab | hab | hab
    · obtain ⟨v, hv, he⟩ := hi.U a b a.isLt hab
      obtain ⟨φ, hφ, hvs⟩ := hv.sum
      obtain ⟨p, hp1, hp2⟩ := R.fl_eq (A a b - v)
      obtain ⟨q, hq1, hq2⟩ := R.fl_eq (R.fl (A a b - v) / s'.D a a)
      have := ldu_perturb (i := a) (f := f a b) (a := A a b) (p := f a b a) rfl (fun k => hm (hφ k)) hvs (h3 hp1 hq1) (by
        simp only [hf]
        rw [hi.Ldiag, he, hq2, hp2]
        have := hpiv hab
        field_simp)
      rw [hA']
      simp only
      rw [ldu_terms (i := a) fun k hk => hlo k hk, ldu_terms (i := a) fun k hk => by rw [hlo k hk, abs_zero]]
      exact this
    · subst hab
      obtain ⟨v, hv, he⟩ := hi.D a a.isLt
      obtain ⟨φ, hφ, hvs⟩ := hv.sum
      obtain ⟨p, hp1, hp2⟩ := R.fl_eq (A a a - v)
      have := ldu_perturb (i := a) (f := f a a) (a := A a a) (p := f a a a) rfl (fun k => hm (hφ k)) hvs (h2 hp1) (by
        simp only [hf]
        rw [hi.Ldiag, hi.Udiag, he, hp2]
        ring)
      rw [hA']
      simp only
      rw [ldu_terms (i := a) fun k hk => hlo k hk, ldu_terms (i := a) fun k hk => by rw [hlo k hk, abs_zero]]
      exact this
    · obtain ⟨v, hv, he⟩ := hi.L b a b.isLt hab
      obtain ⟨φ, hφ, hvs⟩ := hv.sum
      obtain ⟨p, hp1, hp2⟩ := R.fl_eq (A a b - v)
      obtain ⟨q, hq1, hq2⟩ := R.fl_eq (R.fl (A a b - v) / s'.D b b)
      have := ldu_perturb (i := b) (f := f a b) (a := A a b) (p := f a b b) rfl (fun k => hm (hφ k)) hvs (h3 hp1 hq1) (by
        simp only [hf]
        rw [hi.Udiag, he, hq2, hp2]
        have := hpiv hab
        field_simp)
      rw [hA']
      simp only
      rw [ldu_terms (i := b) fun k hk => hro k hk, ldu_terms (i := b) fun k hk => by rw [hro k hk, abs_zero]]
      exact this
  refine hfin.trans ?_
  simp only [← habs]
  exact mul_le_mul_of_nonneg_right hgam (Finset.sum_nonneg fun _ _ => abs_nonneg _)

/-- C103: rounded arithmetic has a result for every matrix. -/
theorem C103_exists (R : Rounding) (A : Matrix (Fin n) (Fin n) ℝ) : ∃ s, R.LduFactorization A s := Rounding.LduFactorization.exists R A

/-- C103: the constant in double precision. -/
theorem C103_double (hu : R.u ≤ 2⁻¹ ^ 53) (hn : n ≤ 10 ^ 6) :
    ((n + 3 : ℕ) : ℝ) * R.u < 1 ∧ Spec.gamma R.u (n + 3) ≤ (n + 3) * (12 / 10 ^ 17) := by
  have hn' : (n : ℝ) ≤ 10 ^ 6 := by exact_mod_cast hn
  have hk : ((n + 3 : ℕ) : ℝ) * R.u ≤ 1 / 10 ^ 9 := by
    have h0 : ((n + 3 : ℕ) : ℝ) ≤ 10 ^ 6 + 3 := by push_cast; linarith
    have := mul_le_mul h0 hu R.u_nonneg (by norm_num)
    refine this.trans ?_
    norm_num
  refine ⟨by linarith, ?_⟩
  unfold Spec.gamma
  have hpos : 0 < 1 - ((n + 3 : ℕ) : ℝ) * R.u := by linarith
  rw [div_le_iff₀ hpos]
  have e : ((n + 3 : ℕ) : ℝ) = n + 3 := by push_cast; ring
  rw [e] at hk ⊢
  have h1 : R.u ≤ 12 / 10 ^ 17 * (1 - (n + 3) * R.u) := by
    have : (2⁻¹ : ℝ) ^ 53 ≤ 12 / 10 ^ 17 * (1 - 1 / 10 ^ 9) := by norm_num
    nlinarith
  have := mul_le_mul_of_nonneg_left h1 (show (0:ℝ) ≤ n + 3 by positivity)
  linarith

/-- C103: the `LDU` class in double precision returns a diagonal matrix, and, if the pivots that are divided by are not zero, it is exactly the
`D` of a matrix near `Q`. -/
theorem C103_qdelta (hu : R.u ≤ 2⁻¹ ^ 53) (hn : n ≤ 10 ^ 6) (Q D : Matrix (Fin n) (Fin n) ℝ) (h : R.LduQDelta Q D) :
    (∀ i j, i ≠ j → D i j = 0) ∧ ((∀ i : Fin n, (i : ℕ) + 1 < n → D i i ≠ 0) → ∃ Q' s, lduFactorization Q' = .ok s ∧ s.D = D ∧
      ∀ i j, |Q' i j - Q i j| ≤ (n + 3) * (12 / 10 ^ 17) * ∑ k, |s.L i k| * |D k k| * |s.U k j|) := by
  obtain ⟨s, hs, rfl⟩ := h
  obtain ⟨h1, h2⟩ := C103_double hu hn
  obtain ⟨-, -, -, -, hd, hb⟩ := C103_backward Q s hs h1
  refine ⟨hd, fun hp => ?_⟩
  obtain ⟨A', h3, -, h4⟩ := hb hp
  exact ⟨A', s, h3, rfl, fun i j => (h4 i j).trans (mul_le_mul_of_nonneg_right h2 (Finset.sum_nonneg fun _ _ => by positivity))⟩

/-- Instance: two rows in double precision; the pivot never vanishes, and the product of the factors is near the matrix. -/
example (hu : R.u ≤ 2⁻¹ ^ 53) (s : LDUState 2) (h : R.LduFactorization !![2, 4; 6, 5] s) :
    s.D 0 0 ≠ 0 ∧ ∀ i j, |(s.L * s.D * s.U) i j - !![2, 4; 6, 5] i j| ≤
      5 * (12 / 10 ^ 17) * ∑ k, |s.L i k| * |s.D k k| * |s.U k j| := by
  obtain ⟨h1, h2⟩ := C103_double (n := 2) hu (by norm_num)
  have h0 : s.D 0 0 ≠ 0 := by
    obtain ⟨v, hv, he⟩ := h.inv.D 0 (by norm_num)
    obtain ⟨φ, -, hs⟩ := hv.sum
    obtain ⟨p, hp, hp'⟩ := R.fl_eq (2 - v)
    have hv0 : v = 0 := by rw [hs]; simp
    subst hv0
    have he' : s.D 0 0 = R.fl (2 - 0) := he
    rw [he', hp']
    exact mul_ne_zero (by norm_num) hp.ne
  obtain ⟨-, -, -, -, -, hb⟩ := C103_backward _ s h h1
  obtain ⟨A', -, h3, h4⟩ := hb fun i hi => by
    have : i = 0 := by ext; have := i.isLt; simp; omega
    rw [this]; exact h0
  refine ⟨h0, fun i j => ?_⟩
  rw [h3]
  refine (h4 i j).trans (mul_le_mul_of_nonneg_right (h2.trans (by norm_num)) (Finset.sum_nonneg fun _ _ => by positivity))

/-- There is such a result. -/
example (R : Rounding) : ∃ s, R.LduFactorization !![2, 4; 6, 5] s := C103_exists R _

end QMat
