import Verif.Model.Double
import Verif.Lemmas.Rounding

/-!
# Overflow and underflow
-/

namespace QMat.Format

open Finset

variable {ι : Type*} [DecidableEq ι] {n : ℕ} {F : Format}

theorem rnd_zero : F.rnd 0 = .fin 0 := by
  rw [rnd, F.fl_zero, if_neg]
  simpa using le_trans zero_le_one F.one_le_large

/-- Results in the range of normal numbers. -/
theorem rnd_normal {x : ℝ} (h1 : F.small ≤ |x|) (h2 : |F.R.fl x| ≤ F.large) : F.rnd x = .fin (F.R.fl x) := by
  rw [rnd, F.fl_normal x h1, if_neg (not_lt.2 h2)]

theorem rnd_cases (x : ℝ) : (∃ s, F.rnd x = .inf s) ∨ (F.rnd x = .fin (F.fl x) ∧ |F.fl x| ≤ F.large) := by
  rw [rnd]
  split_ifs with h
  · exact Or.inl ⟨_, rfl⟩
  · exact Or.inr ⟨rfl, not_lt.1 h⟩

theorem rnd_over {x : ℝ} (h1 : F.small ≤ |x|) (h2 : F.large < |F.R.fl x|) : ∃ s, F.rnd x = .inf s := by
  rw [rnd, F.fl_normal x h1, if_pos h2]
  exact ⟨_, rfl⟩

theorem fl_ge (R : Rounding) (x : ℝ) : (1 - R.u) * |x| ≤ |R.fl x| := by
  have h := R.err x
  have := abs_sub_abs_le_abs_sub x (R.fl x)
  rw [abs_sub_comm] at this
  linarith

theorem fl_le (R : Rounding) (x : ℝ) : |R.fl x| ≤ (1 + R.u) * |x| := by
  have h := R.err x
  have := abs_sub_abs_le_abs_sub (R.fl x) x
  linarith

theorem reduce_card_pos {op : FP → FP → FP} {f : ι → FP} {s : Finset ι} {a : FP} (h : Reduce op f s a) : 1 ≤ s.card := by
  induction h with
  | single i => simp
  | combine hst hs ht ihs iht => rw [card_union_of_disjoint hst]; omega

theorem npProd_reduce {f : Fin n → FP} {a : FP} (h : F.NpProd f a) (hn : 0 < n) : Reduce F.mul f univ a := by
  rcases h with ⟨hE, -⟩ | h
  · exact (hE.false ⟨0, hn⟩).elim
  · exact h

theorem npSum_reduce {f : Fin n → FP} {a : FP} (h : F.NpSum f a) (hn : 0 < n) : Reduce F.add f univ a := by
  rcases h with ⟨hE, -⟩ | h
  · exact (hE.false ⟨0, hn⟩).elim
  · exact h

theorem reduce_exists (op : FP → FP → FP) (f : ι → FP) {s : Finset ι} (hs : s.Nonempty) : ∃ a, Reduce op f s a := by
  induction s using Finset.induction_on with
  | empty => exact absurd hs (by simp)
  | insert i s hi ih =>
    rcases s.eq_empty_or_nonempty with rfl | h
    · exact ⟨f i, by simpa using Reduce.single i⟩
    · obtain ⟨a, ha⟩ := ih h
      exact ⟨_, Finset.insert_eq i s ▸ Reduce.combine (by simpa using hi) (Reduce.single i) ha⟩

/-! ## Products in range -/

theorem abs_le_exp {y : ℝ} (hy : y ≠ 0) {L : ℝ} (h : |Real.log y| ≤ L) : Real.exp (-L) ≤ |y| ∧ |y| ≤ Real.exp L := by
  have hp := abs_pos.2 hy
  rw [← Real.log_abs] at h
  obtain ⟨h1, h2⟩ := abs_le.1 h
  exact ⟨(Real.le_log_iff_exp_le hp).1 h1, (Real.log_le_iff_le_exp hp).1 h2⟩

theorem fl_log (R : Rounding) {x : ℝ} (hx : x ≠ 0) :
    R.fl x ≠ 0 ∧ |Real.log (R.fl x)| ≤ |Real.log x| + R.ω := by
  obtain ⟨φ, hφ, e⟩ := R.fl_eq x
  rw [e]
  refine ⟨mul_ne_zero hx hφ.ne, ?_⟩
  rw [Real.log_mul hx hφ.ne]
  exact (abs_add_le _ _).trans (add_le_add le_rfl hφ.2)

/-- A result in range. -/
theorem rnd_range {L : ℝ} (h1 : F.small ≤ Real.exp (-L)) (h2 : Real.exp L ≤ F.large) {x : ℝ} (hx : x ≠ 0)
    (h : |Real.log (x)| + F.R.ω ≤ L) : F.rnd x = .fin (F.R.fl x) := by
  obtain ⟨h3, h4⟩ := fl_log F.R hx
  refine rnd_normal (h1.trans ?_) (le_trans (abs_le_exp h3 (h4.trans h)).2 h2)
  exact (abs_le_exp hx (le_trans (le_add_of_nonneg_right F.R.ω_nonneg) h)).1

theorem reduce_mul_range {L : ℝ} (h1 : F.small ≤ Real.exp (-L)) (h2 : Real.exp L ≤ F.large) {f : ι → FP} {y : ι → ℝ}
    {s : Finset ι} {a : FP} (hf : ∀ i ∈ s, f i = .fin (y i)) (hy : ∀ i ∈ s, y i ≠ 0)
    (h : ∑ i ∈ s, |Real.log (y i)| + (s.card - 1) * F.R.ω ≤ L) (ha : Reduce F.mul f s a) :
    ∃ r, a = .fin r ∧ F.R.Reduce (· * ·) y s r ∧ r ≠ 0 ∧
      |Real.log (r)| ≤ ∑ i ∈ s, |Real.log (y i)| + (s.card - 1) * F.R.ω := by
  induction ha with
  | single i =>
    refine ⟨y i, hf i (by simp), .single i, hy i (by simp), by simp⟩
  | @combine s t a b hst hs ht ihs iht =>
    have hω := F.R.ω_nonneg
    rw [card_union_of_disjoint hst, sum_union hst, Nat.cast_add] at h ⊢
    have c1 : (1:ℝ) ≤ s.card := by exact_mod_cast reduce_card_pos hs
    have c2 : (1:ℝ) ≤ t.card := by exact_mod_cast reduce_card_pos ht
    have p1 : 0 ≤ ∑ i ∈ s, |Real.log (y i)| := sum_nonneg fun _ _ => abs_nonneg _
    have p2 : 0 ≤ ∑ i ∈ t, |Real.log (y i)| := sum_nonneg fun _ _ => abs_nonneg _
    obtain ⟨r, rfl, hr, hr0, hrl⟩ := ihs (fun i hi => hf i (mem_union_left _ hi)) (fun i hi => hy i (mem_union_left _ hi))
      (by nlinarith)
    obtain ⟨q, rfl, hq, hq0, hql⟩ := iht (fun i hi => hf i (mem_union_right _ hi)) (fun i hi => hy i (mem_union_right _ hi))
      (by nlinarith)
    have hrq : |Real.log (r * q)| ≤ |Real.log (r)| + |Real.log (q)| := by
      rw [Real.log_mul hr0 hq0]
      exact abs_add_le _ _
    have h0 : r * q ≠ 0 := mul_ne_zero hr0 hq0
    refine ⟨F.R.fl (r * q), ?_, .combine hst hr hq, (fl_log F.R h0).1, ?_⟩
    · exact rnd_range h1 h2 h0 (by linarith)
    · have := (fl_log F.R h0).2
      linarith

/-! ## Sums in range -/

theorem fl_R_fl {x : ℝ} (h : F.small ≤ |x|) : F.fl (F.R.fl x) = F.R.fl x := by
  rw [← F.fl_normal x h, F.fl_idem]

/-- Sums do not lose more than with unbounded exponents. -/
theorem rnd_add {a b : ℝ} (ha : F.fl a = a) (hb : F.fl b = b) (h : |F.R.fl (a + b)| ≤ F.large) :
    F.rnd (a + b) = .fin (F.R.fl (a + b)) ∧ F.fl (F.R.fl (a + b)) = F.R.fl (a + b) := by
  rcases le_or_gt F.small |a + b| with hs | hs
  · exact ⟨rnd_normal hs h, fl_R_fl hs⟩
  · obtain ⟨h1, h2⟩ := F.add_small a b ha hb hs
    rw [h2] at h ⊢
    refine ⟨?_, h1⟩
    rw [rnd, h1, if_neg (not_lt.2 h)]

theorem reduce_add_range {f : ι → FP} {y : ι → ℝ} {s : Finset ι} {a : FP} (hf : ∀ i ∈ s, f i = .fin (y i))
    (hy : ∀ i ∈ s, F.fl (y i) = y i) (h : (1 + F.R.u) ^ s.card * ∑ i ∈ s, |y i| ≤ F.large) (ha : Reduce F.add f s a) :
    ∃ r, a = .fin r ∧ F.R.Reduce (· + ·) y s r ∧ F.fl r = r ∧ |r| ≤ (1 + F.R.u) ^ s.card * ∑ i ∈ s, |y i| := by
  have u0 := F.R.u_nonneg
  have hmono : ∀ k l : ℕ, k ≤ l → (1 + F.R.u) ^ k ≤ (1 + F.R.u) ^ l := fun k l h => pow_le_pow_right₀ (by linarith) h
  induction ha with
  | single i =>
    refine ⟨y i, hf i (by simp), .single i, hy i (by simp), ?_⟩
    simp only [card_singleton, pow_one, sum_singleton]
    nlinarith [abs_nonneg (y i)]
  | @combine s t a b hst hs ht ihs iht =>
    rw [card_union_of_disjoint hst, sum_union hst] at h ⊢
    have c1 := reduce_card_pos hs
    have c2 := reduce_card_pos ht
    have p1 : 0 ≤ ∑ i ∈ s, |y i| := sum_nonneg fun _ _ => abs_nonneg _
    have p2 : 0 ≤ ∑ i ∈ t, |y i| := sum_nonneg fun _ _ => abs_nonneg _
    have q1 : (1 + F.R.u) ^ s.card * ∑ i ∈ s, |y i| ≤ (1 + F.R.u) ^ (s.card + t.card - 1) * ∑ i ∈ s, |y i| :=
      mul_le_mul_of_nonneg_right (hmono _ _ (by omega)) p1
    have q2 : (1 + F.R.u) ^ t.card * ∑ i ∈ t, |y i| ≤ (1 + F.R.u) ^ (s.card + t.card - 1) * ∑ i ∈ t, |y i| :=
      mul_le_mul_of_nonneg_right (hmono _ _ (by omega)) p2
    have q3 : (1 + F.R.u) ^ (s.card + t.card) = (1 + F.R.u) * (1 + F.R.u) ^ (s.card + t.card - 1) := by
      rw [← pow_succ']
      congr 1
      omega
    have q4 : 1 ≤ (1 + F.R.u) ^ (s.card + t.card - 1) := one_le_pow₀ (by linarith)
    rw [q3] at h ⊢
    generalize (1 + F.R.u) ^ (s.card + t.card - 1) = N at q1 q2 h q4 ⊢
    have r1 : N * (∑ i ∈ s, |y i| + ∑ i ∈ t, |y i|) ≤ (1 + F.R.u) * N * (∑ i ∈ s, |y i| + ∑ i ∈ t, |y i|) := by
      have : 0 ≤ F.R.u * (N * (∑ i ∈ s, |y i| + ∑ i ∈ t, |y i|)) :=
        mul_nonneg u0 (mul_nonneg (by linarith) (by linarith))
      linarith
    have n1 : 0 ≤ N * ∑ i ∈ s, |y i| := mul_nonneg (by linarith) p1
    have n2 : 0 ≤ N * ∑ i ∈ t, |y i| := mul_nonneg (by linarith) p2
    obtain ⟨r, rfl, hr, hr0, hrl⟩ := ihs (fun i hi => hf i (mem_union_left _ hi)) (fun i hi => hy i (mem_union_left _ hi))
      (by linarith)
    obtain ⟨q, rfl, hq, hq0, hql⟩ := iht (fun i hi => hf i (mem_union_right _ hi)) (fun i hi => hy i (mem_union_right _ hi))
      (by linarith)
    have h5 : |F.R.fl (r + q)| ≤ (1 + F.R.u) * N * (∑ i ∈ s, |y i| + ∑ i ∈ t, |y i|) := by
      refine (fl_le F.R _).trans ?_
      rw [mul_assoc]
      refine mul_le_mul_of_nonneg_left ?_ (by linarith)
      have := abs_add_le r q
      linarith
    obtain ⟨h6, h7⟩ := rnd_add hr0 hq0 (h5.trans h)
    exact ⟨F.R.fl (r + q), h6, .combine hst hr hq, h7, h5⟩

/-! ## Products that overflow -/

theorem mul_inf_ne {s : Bool} {b : FP} (hb : (∃ s', b = .inf s') ∨ ∃ r, b = .fin r ∧ r ≠ 0) :
    (∃ s', F.mul (.inf s) b = .inf s') ∧ ∃ s', F.mul b (.inf s) = .inf s' := by
  rcases hb with ⟨s', rfl⟩ | ⟨r, rfl, hr⟩
  · exact ⟨⟨_, rfl⟩, _, rfl⟩
  · simp [mul, hr]

theorem reduce_mul_large (hs : F.small ≤ 1 / 4) {f : ι → FP} {d : ι → ℝ} {s : Finset ι} {a : FP}
    (hf : ∀ i ∈ s, (∃ b, f i = .inf b) ∨ ∃ y, f i = .fin y ∧ |y| ≤ F.large ∧ (1 - F.R.u) * d i ≤ |y|)
    (hd : ∀ i ∈ s, 1 ≤ d i) (hu : 1 / 2 ≤ (1 - F.R.u) ^ (2 * s.card)) (ha : Reduce F.mul f s a) :
    (∃ b, a = .inf b) ∨ ∃ r, a = .fin r ∧ |r| ≤ F.large ∧ (1 - F.R.u) ^ (2 * s.card - 1) * ∏ i ∈ s, d i ≤ |r| := by
  have u0 := F.R.u_nonneg
  have u1 := F.R.u_lt_one
  have hmono : ∀ k l : ℕ, k ≤ l → (1 - F.R.u) ^ l ≤ (1 - F.R.u) ^ k := fun k l h =>
    pow_le_pow_of_le_one (by linarith) (by linarith) h
  induction ha with
  | single i =>
    rcases hf i (by simp) with h | ⟨y, h1, h2, h3⟩
    · exact Or.inl h
    · refine Or.inr ⟨y, h1, h2, le_trans ?_ h3⟩
      have := hd i (by simp)
      simp
  | @combine s t a b hst hs' ht ihs iht =>
    rw [card_union_of_disjoint hst] at hu ⊢
    have e1 := ihs (fun i hi => hf i (mem_union_left _ hi)) (fun i hi => hd i (mem_union_left _ hi))
      (hu.trans (hmono _ _ (by omega)))
    have e2 := iht (fun i hi => hf i (mem_union_right _ hi)) (fun i hi => hd i (mem_union_right _ hi))
      (hu.trans (hmono _ _ (by omega)))
    have pd : ∀ s' : Finset ι, s' ⊆ s ∪ t → 1 ≤ ∏ i ∈ s', d i := fun s' h =>
      Finset.one_le_prod fun i hi => hd i (h hi)
    have q1 := pd s subset_union_left
    have q2 := pd t subset_union_right
    have hh1 : 1 / 2 ≤ (1 - F.R.u) ^ (2 * s.card - 1) := hu.trans (hmono _ _ (by omega))
    have hh2 : 1 / 2 ≤ (1 - F.R.u) ^ (2 * t.card - 1) := hu.trans (hmono _ _ (by omega))
    rcases e1 with ⟨s1, rfl⟩ | ⟨r, rfl, hr, hr'⟩
    · refine Or.inl (mul_inf_ne ?_).1
      rcases e2 with h | ⟨q, rfl, hq, hq'⟩
      · exact Or.inl h
      · refine Or.inr ⟨q, rfl, ?_⟩
        rintro rfl
        rw [abs_zero] at hq'
        nlinarith
    · rcases e2 with ⟨s2, rfl⟩ | ⟨q, rfl, hq, hq'⟩
      · refine Or.inl (mul_inf_ne (Or.inr ⟨r, rfl, ?_⟩)).2
        rintro rfl
        rw [abs_zero] at hr'
        nlinarith
      · have c1 : 1 / 2 ≤ |r| := by nlinarith
        have c2 : 1 / 2 ≤ |q| := by nlinarith
        have c3 : F.small ≤ |r * q| := by rw [abs_mul]; nlinarith
        change (∃ b, F.rnd (r * q) = .inf b) ∨ ∃ r', F.rnd (r * q) = .fin r' ∧ _
        rcases rnd_cases (F := F) (r * q) with h | ⟨h, h'⟩
        · exact Or.inl h
        · refine Or.inr ⟨_, h, h', ?_⟩
          rw [F.fl_normal _ c3]
          refine le_trans ?_ (fl_ge F.R _)
          rw [prod_union hst, abs_mul]
          have k1 := mul_le_mul hr' hq' (by positivity) (abs_nonneg r)
          have k2 := mul_le_mul_of_nonneg_left k1 (by linarith : (0:ℝ) ≤ 1 - F.R.u)
          refine le_trans ?_ k2
          have c : 1 ≤ s.card := reduce_card_pos hs'
          have c' : 1 ≤ t.card := reduce_card_pos ht
          have e : 2 * (s.card + t.card) - 1 = 1 + (2 * s.card - 1) + (2 * t.card - 1) := by omega
          rw [e, pow_add, pow_add, pow_one]
          exact le_of_eq (by ring)

/-! ## Products that underflow -/

theorem abs_fl_ge (x : ℝ) : (1 - F.R.u) * |x| - F.tiny ≤ |F.fl x| := by
  have u0 := F.R.u_nonneg
  have t0 := F.tiny_nonneg
  rcases le_or_gt F.small |x| with h | h
  · rw [F.fl_normal x h]
    have := fl_ge F.R x
    linarith
  · have h1 := F.fl_small x h
    have h2 := abs_sub_abs_le_abs_sub x (F.fl x)
    rw [abs_sub_comm] at h2
    nlinarith [abs_nonneg x]

theorem abs_fl_le (x : ℝ) : |F.fl x| ≤ (1 + F.R.u) * |x| + F.tiny := by
  have u0 := F.R.u_nonneg
  have t0 := F.tiny_nonneg
  rcases le_or_gt F.small |x| with h | h
  · rw [F.fl_normal x h]
    have := fl_le F.R x
    linarith
  · have h1 := F.fl_small x h
    have h2 := abs_sub_abs_le_abs_sub (F.fl x) x
    nlinarith [abs_nonneg x]

theorem prod_lower {X Y p q r s : ℝ} (hX : 0 ≤ X) (hX1 : X ≤ 1) (hY : 0 ≤ Y) (hY1 : Y ≤ 1) (hp : 0 ≤ p) (hq : 0 ≤ q)
    (hr : X - p ≤ r) (hs : Y - q ≤ s) (hr0 : 0 ≤ r) (hs0 : 0 ≤ s) : X * Y - (p + q) ≤ r * s := by
  have h0 := mul_nonneg hr0 hs0
  rcases le_total X p with h | h
  · have : X * Y ≤ X := mul_le_of_le_one_right hX hY1
    linarith
  rcases le_total Y q with h' | h'
  · have : X * Y ≤ Y := mul_le_of_le_one_left hY hX1
    linarith
  have h1 := mul_le_mul hr hs (by linarith) hr0
  have h2 : p * Y ≤ p := mul_le_of_le_one_right hp hY1
  have h3 : X * q ≤ q := mul_le_of_le_one_left hq hX1
  have h4 := mul_nonneg hp hq
  linarith

theorem prod_upper {A B M N p q r s : ℝ} (hM : 1 ≤ M) (hN : 1 ≤ N) (hB : 0 ≤ B) (hB1 : B ≤ 1) (hp : 0 ≤ p)
    (hq : 0 ≤ q) (hr : r ≤ M * (A + p)) (hs : s ≤ N * (B + q)) (hr0 : 0 ≤ r) (hr1 : r ≤ 1) :
    r * s ≤ M * N * (A * B + p + q) := by
  have h1 : r * s ≤ r * (N * (B + q)) := mul_le_mul_of_nonneg_left hs hr0
  have h2 : r * B ≤ M * (A + p) * B := mul_le_mul_of_nonneg_right hr hB
  have h3 : r * q ≤ q := mul_le_of_le_one_left hq hr1
  have h4 : q ≤ M * q := le_mul_of_one_le_left hq hM
  have h5 : p * B ≤ p := mul_le_of_le_one_right hp hB1
  have h6 : M * (p * B) ≤ M * p := mul_le_mul_of_nonneg_left h5 (by linarith)
  have h7 : r * (B + q) ≤ M * (A * B + p + q) := by linarith
  have h8 : N * (r * (B + q)) ≤ N * (M * (A * B + p + q)) := mul_le_mul_of_nonneg_left h7 (by linarith)
  linarith

/-- A product of numbers of modulus at most one half, and of ones: relative errors and an absolute error of `tiny` for each operation. -/
theorem reduce_mul_small (ht : F.tiny ≤ 1 / 16) (hu : F.R.u ≤ 1 / 16) {f : ι → FP} {d : ι → ℝ} {s : Finset ι} {a : FP}
    (hf : ∀ i ∈ s, ∃ y, f i = .fin y ∧ F.fl y = y ∧ (1 - F.R.u) * d i ≤ |y| ∧ |y| ≤ (1 + F.R.u) * d i)
    (hd : ∀ i ∈ s, 0 ≤ d i ∧ (d i ≤ 1 / 2 ∨ f i = .fin 1 ∧ d i = 1)) (ha : Reduce F.mul f s a) :
    ∃ r, a = .fin r ∧ (F.fl r = r ∧ (r = 1 ∨ |r| ≤ 3 / 4)) ∧
      (1 - F.R.u) ^ (2 * s.card - 1) * ∏ i ∈ s, d i - (s.card - 1) * F.tiny ≤ |r| ∧
      |r| ≤ (1 + F.R.u) ^ (2 * s.card - 1) * (∏ i ∈ s, d i + (s.card - 1) * F.tiny) := by
  have u0 := F.R.u_nonneg
  have u1 := F.R.u_lt_one
  have t0 := F.tiny_nonneg
  induction ha with
  | single i =>
    obtain ⟨y, h1, h0, h2, h3⟩ := hf i (by simp)
    obtain ⟨h4, h5⟩ := hd i (by simp)
    refine ⟨y, h1, ⟨h0, ?_⟩, by simpa using h2, by simpa using h3⟩
    rcases h5 with h5 | ⟨h5, -⟩
    · exact Or.inr (by nlinarith)
    · rw [h1] at h5
      exact Or.inl (FP.fin.inj h5)
  | @combine s t a b hst hs' ht' ihs iht =>
    rw [card_union_of_disjoint hst, prod_union hst]
    have hd1 : ∀ i ∈ s ∪ t, d i ≤ 1 := fun i hi => by
      rcases (hd i hi).2 with h | ⟨-, h⟩ <;> linarith
    obtain ⟨r, rfl, ⟨r0, r1⟩, r2, r3⟩ := ihs (fun i hi => hf i (mem_union_left _ hi)) (fun i hi => hd i (mem_union_left _ hi))
    obtain ⟨q, rfl, ⟨q0, q1⟩, q2, q3⟩ := iht (fun i hi => hf i (mem_union_right _ hi)) (fun i hi => hd i (mem_union_right _ hi))
    have c : 1 ≤ s.card := reduce_card_pos hs'
    have c' : 1 ≤ t.card := reduce_card_pos ht'
    have p1 : 0 ≤ ∏ i ∈ s, d i := prod_nonneg fun i hi => (hd i (mem_union_left _ hi)).1
    have p2 : 0 ≤ ∏ i ∈ t, d i := prod_nonneg fun i hi => (hd i (mem_union_right _ hi)).1
    have e : 2 * (s.card + t.card) - 1 = 1 + (2 * s.card - 1) + (2 * t.card - 1) := by omega
    have cR : (1:ℝ) ≤ s.card := by exact_mod_cast c
    have cR' : (1:ℝ) ≤ t.card := by exact_mod_cast c'
    set k := 2 * s.card - 1
    set l := 2 * t.card - 1
    set A := ∏ i ∈ s, d i
    set B := ∏ i ∈ t, d i
    have hm : (0:ℝ) ≤ (1 - F.R.u) ^ k := pow_nonneg (by linarith) _
    have hm' : (0:ℝ) ≤ (1 - F.R.u) ^ l := pow_nonneg (by linarith) _
    have hm1 : (1 - F.R.u) ^ k ≤ 1 := pow_le_one₀ (by linarith) (by linarith)
    have hm1' : (1 - F.R.u) ^ l ≤ 1 := pow_le_one₀ (by linarith) (by linarith)
    have hM : (1:ℝ) ≤ (1 + F.R.u) ^ k := one_le_pow₀ (by linarith)
    have hM' : (1:ℝ) ≤ (1 + F.R.u) ^ l := one_le_pow₀ (by linarith)
    have hA1 : A ≤ 1 := prod_le_one (fun i hi => (hd i (mem_union_left _ hi)).1) fun i hi =>
      hd1 i (mem_union_left _ hi)
    have hB1 : B ≤ 1 := prod_le_one (fun i hi => (hd i (mem_union_right _ hi)).1) fun i hi =>
      hd1 i (mem_union_right _ hi)
    have z1 : 0 ≤ ((s.card:ℝ) - 1) * F.tiny := mul_nonneg (by linarith) t0
    have z2 : 0 ≤ ((t.card:ℝ) - 1) * F.tiny := mul_nonneg (by linarith) t0
    have hr1 : |r| ≤ 1 := by
      rcases r1 with h | h
      · rw [h, abs_one]
      · linarith
    have hle := abs_fl_le (F := F) (r * q)
    have hge := abs_fl_ge (F := F) (r * q)
    have hlt' : F.fl (r * q) = 1 ∨ |F.fl (r * q)| ≤ 3 / 4 := by
      rcases r1 with rfl | r1
      · rw [one_mul, q0]
        exact q1
      · rcases q1 with rfl | q1
        · rw [mul_one, r0]
          exact Or.inr r1
        · have hrq : |r * q| ≤ 9 / 16 := by
            rw [abs_mul]
            nlinarith [abs_nonneg r, abs_nonneg q]
          exact Or.inr (by nlinarith [abs_nonneg (r * q)])
    have hlt : |F.fl (r * q)| ≤ 1 := by
      rcases hlt' with h | h
      · rw [h, abs_one]
      · linarith
    refine ⟨F.fl (r * q), ?_, ⟨F.fl_idem _, hlt'⟩, ?_, ?_⟩
    · change F.rnd (r * q) = _
      rcases rnd_cases (F := F) (r * q) with ⟨b, h⟩ | h
      · rw [rnd, if_neg (not_lt.2 (le_trans hlt (by linarith [F.one_le_large])))]
      · exact h.1
    · push_cast
      rw [e, pow_add, pow_add, pow_one]
      have k1 := prod_lower (mul_nonneg hm p1) (mul_le_one₀ hm1 p1 hA1) (mul_nonneg hm' p2) (mul_le_one₀ hm1' p2 hB1)
        z1 z2 r2 q2 (abs_nonneg r) (abs_nonneg q)
      rw [← abs_mul] at k1
      have k2 := mul_le_mul_of_nonneg_left k1 (by linarith : (0:ℝ) ≤ 1 - F.R.u)
      have k3 : 0 ≤ F.R.u * (((s.card:ℝ) - 1) * F.tiny + (t.card - 1) * F.tiny) := mul_nonneg u0 (by linarith)
      linarith
    · push_cast
      rw [e, pow_add, pow_add, pow_one]
      have k1 := prod_upper hM hM' p2 hB1 z1 z2 r3 q3 (abs_nonneg r) hr1
      rw [← abs_mul] at k1
      have k2 := mul_le_mul_of_nonneg_left k1 (by linarith : (0:ℝ) ≤ 1 + F.R.u)
      have k4 : 1 ≤ (1 + F.R.u) * ((1 + F.R.u) ^ k * (1 + F.R.u) ^ l) :=
        one_le_mul_of_one_le_of_one_le (by linarith) (one_le_mul_of_one_le_of_one_le hM hM')
      have k3 := mul_le_mul_of_nonneg_right k4 t0
      linarith

/-! ## Rows -/

theorem iDiff_ne_nan (x : Fin n → ℝ) (t : ℝ) (j : Fin n) : (∃ s, F.iDiff x t j = .inf s) ∨ ∃ y, F.iDiff x t j = .fin y := by
  rw [iDiff]
  rcases rnd_cases (F := F) (t - x j) with ⟨s, h⟩ | ⟨h, -⟩
  · rw [h]; exact Or.inr ⟨0, rfl⟩
  · rw [h]
    by_cases h0 : F.fl (t - x j) = 0
    · exact Or.inl ⟨decide ((1:ℝ) < 0), by simp only [div, h0, if_true, one_ne_zero, if_false]⟩
    · simp only [div, h0, if_false]
      rcases rnd_cases (F := F) (1 / F.fl (t - x j)) with h | ⟨h, -⟩
      · exact Or.inl h
      · exact Or.inr ⟨_, h⟩

/-- The factors of the weights in a row are finite. -/
theorem rowTerms_eq (x : Fin n → ℝ) (w : Fin n → FP) (t : ℝ) (j : Fin n) : ∃ c, F.rowTerms x w t j = F.mul (.fin c) (w j) := by
  rw [rowTerms]
  split_ifs with h1 h2
  · exact ⟨1, rfl⟩
  · exact ⟨0, rfl⟩
  · rcases iDiff_ne_nan (F := F) x t j with ⟨s, h⟩ | ⟨y, h⟩
    · exact absurd ⟨j, s, h⟩ h1
    · exact ⟨y, by rw [h]⟩

theorem reduce_add_zero {f : ι → FP} {s : Finset ι} {a : FP} (hf : ∀ i ∈ s, f i = .fin 0) (ha : Reduce F.add f s a) :
    a = .fin 0 := by
  induction ha with
  | single i => exact hf i (by simp)
  | combine hst hs ht ihs iht =>
    rw [ihs fun i hi => hf i (mem_union_left _ hi), iht fun i hi => hf i (mem_union_right _ hi)]
    change F.rnd (0 + 0) = _
    rw [add_zero, rnd_zero]

/-- With weights that are all zero, all entries of all rows are nan. -/
theorem row_zero_weights (hn : 0 < n) {x : Fin n → ℝ} {w : Fin n → FP} (hw : ∀ j, w j = .fin 0) {t : ℝ} {P : Fin n → FP}
    (h : F.InterpolationRow x w t P) (j : Fin n) : P j = .nan := by
  obtain ⟨S, hS, hP⟩ := h
  have h0 : ∀ j, F.rowTerms x w t j = .fin 0 := fun j => by
    obtain ⟨c, hc⟩ := rowTerms_eq (F := F) x w t j
    rw [hc, hw]
    change F.rnd (c * 0) = _
    rw [mul_zero, rnd_zero]
  rw [hP, h0, reduce_add_zero (fun i _ => h0 i) (npSum_reduce hS hn)]
  simp [div]

/-- Infinite or nan. -/
def Bad (a : FP) : Prop := a = .nan ∨ ∃ s, a = .inf s

theorem bad_add {a b : FP} (h : Bad a ∨ Bad b) : Bad (F.add a b) := by
  unfold Bad at *
  cases a <;> cases b <;> simp_all [add]
  split_ifs <;> simp_all

theorem reduce_add_bad {f : ι → FP} {s : Finset ι} {a : FP} {k : ι} (hk : k ∈ s) (hf : Bad (f k)) (ha : Reduce F.add f s a) :
    Bad a := by
  induction ha with
  | single i => rw [mem_singleton] at hk; exact hk ▸ hf
  | combine hst hs ht ihs iht =>
    rcases mem_union.1 hk with h | h
    · exact bad_add (Or.inl (ihs h))
    · exact bad_add (Or.inr (iht h))

theorem bad_div {a b : FP} (ha : Bad a) (hb : Bad b) : F.div a b = .nan := by
  rcases ha with rfl | ⟨s, rfl⟩ <;> rcases hb with rfl | ⟨s', rfl⟩ <;> rfl

/-- With an infinite weight every row has an entry that is nan. -/
theorem row_inf_weight {x : Fin n → ℝ} {w : Fin n → FP} {k : Fin n} {s : Bool} (hw : w k = .inf s) {t : ℝ} {P : Fin n → FP}
    (h : F.InterpolationRow x w t P) : P k = .nan := by
  obtain ⟨S, hS, hP⟩ := h
  have h0 : Bad (F.rowTerms x w t k) := by
    obtain ⟨c, hc⟩ := rowTerms_eq (F := F) x w t k
    rw [hc, hw]
    by_cases hc0 : c = 0
    · exact Or.inl (by simp [mul, hc0])
    · exact Or.inr ⟨xor (decide (c < 0)) s, by simp only [mul, hc0, if_false]⟩
  rw [hP]
  exact bad_div h0 (reduce_add_bad (mem_univ k) h0 (npSum_reduce hS (Nat.lt_of_le_of_lt (Nat.zero_le _) k.2)))

end QMat.Format
