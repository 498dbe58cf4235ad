import Verif.Model.Num
import Mathlib.Tactic.Ring
import Mathlib.Tactic.Linarith
import Mathlib.Tactic.FieldSimp
import Mathlib.Tactic.LinearCombination

/-!
# Invariants of the loops of `lduFactorization`
-/

namespace QMat

open Matrix

/-- Induction over a `for i in range(n)` loop. -/
theorem foldl_finRange_induction {σ : Type*} {n : ℕ} (f : σ → Fin n → σ) (s : σ) (P : ℕ → σ → Prop)
    (h0 : P 0 s) (hstep : ∀ (i : Fin n) s, P i s → P (i + 1) (f s i)) :
    P n ((List.finRange n).foldl f s) := by
  have key : ∀ t ≤ n, P t (((List.finRange n).take t).foldl f s) := by
    intro t
    induction t with
    | zero => intro _; simpa using h0
    | succ t ih =>
      intro ht
      have hlt : t < (List.finRange n).length := by simpa using ht
      rw [List.take_succ_eq_append_getElem hlt, List.foldl_append]
      have := hstep ⟨t, by omega⟩ _ (ih (by omega))
      simpa using this
  have := key n le_rfl
  rwa [List.take_of_length_le (by simp)] at this

theorem npSetEntry_apply {n m : ℕ} (M : Matrix (Fin n) (Fin m) ℝ) (i : Fin n) (j : Fin m) (x : ℝ)
    (a : Fin n) (b : Fin m) : npSetEntry M i j x a b = if a = i ∧ b = j then x else M a b := rfl

/-- The sums only read columns of `L` and rows of `U` before `i`, and pivots before `i`. -/
theorem lduDot_congr {n : ℕ} {s t : LDUState n} {i r c : Fin n}
    (hL : ∀ k < i, s.L r k = t.L r k) (hD : ∀ k < i, s.D k k = t.D k k)
    (hU : ∀ k < i, s.U k c = t.U k c) : lduDot s i r c = lduDot t i r c := by
  unfold lduDot
  refine Finset.sum_congr rfl fun k hk => ?_
  have : k < i := by simpa using hk
  rw [hL k this, hD k this, hU k this]

theorem ldu_inner_spec {n : ℕ} (A : Matrix (Fin n) (Fin n) ℝ) (i : Fin n) (s : LDUState n)
    (l : List (Fin n)) :
    let t := l.foldl (lduInner A i) s
    t.D = s.D ∧
    (∀ a b, t.L a b = if b = i ∧ a ∈ l then (A a i - lduDot s i a i) / s.D i i else s.L a b) ∧
    (∀ a b, t.U a b = if a = i ∧ b ∈ l then (A i b - lduDot s i i b) / s.D i i else s.U a b) := by
  induction l generalizing s with
  | nil => simp
  | cons j l ih =>
    intro t
    have ht : t = l.foldl (lduInner A i) (lduInner A i s j) := rfl
    obtain ⟨h1, h2, h3⟩ := ih (lduInner A i s j)
    rw [← ht] at h1 h2 h3
    have hD : (lduInner A i s j).D = s.D := rfl
    have hL : ∀ a b, (lduInner A i s j).L a b =
        if a = j ∧ b = i then (A j i - lduDot s i j i) / s.D i i else s.L a b := fun a b => rfl
    have hU : ∀ a b, (lduInner A i s j).U a b =
        if a = i ∧ b = j then (A i j - lduDot s i i j) / s.D i i else s.U a b := by
      intro a b
      change (if a = i ∧ b = j then (A i j - lduDot _ i i j) / s.D i i else s.U a b) = _
      congr 2
      congr 1
      refine lduDot_congr (fun k hk => ?_) (fun _ _ => rfl) (fun _ _ => rfl)
      change (if i = j ∧ k = i then _ else s.L i k) = _
      rw [if_neg]
      rintro ⟨-, rfl⟩
      exact lt_irrefl _ hk
    have hdot : ∀ r c, lduDot (lduInner A i s j) i r c = lduDot s i r c := fun r c =>
      lduDot_congr
        (fun k hk => by rw [hL, if_neg]; rintro ⟨-, rfl⟩; exact lt_irrefl _ hk)
        (fun k _ => by rw [hD])
        (fun k hk => by rw [hU, if_neg]; rintro ⟨rfl, -⟩; exact lt_irrefl _ hk)
    refine ⟨by rw [h1, hD], fun a b => ?_, fun a b => ?_⟩
    · rw [h2, hdot, hD, hL]
      by_cases hb : b = i <;> by_cases ha : a = j <;> by_cases hl : a ∈ l <;> simp [hb, ha, hl]
    · rw [h3, hdot, hD, hU]
      by_cases ha : a = i <;> by_cases hb : b = j <;> by_cases hl : b ∈ l <;> simp [hb, ha, hl]

/-- What holds after the outer loop has treated the indices below `t`. -/
structure LDUInv {n : ℕ} (A : Matrix (Fin n) (Fin n) ℝ) (t : ℕ) (s : LDUState n) : Prop where
  diag : ∀ a b, a ≠ b → s.D a b = 0
  Ldiag : ∀ a, s.L a a = 1
  Udiag : ∀ a, s.U a a = 1
  Lzero : ∀ a b, a < b → s.L a b = 0
  Uzero : ∀ a b, b < a → s.U a b = 0
  D : ∀ i : Fin n, (i : ℕ) < t → s.D i i = A i i - lduDot s i i i
  L : ∀ i j : Fin n, (i : ℕ) < t → i < j → s.L j i = (A j i - lduDot s i j i) / s.D i i
  U : ∀ i j : Fin n, (i : ℕ) < t → i < j → s.U i j = (A i j - lduDot s i i j) / s.D i i

theorem ldu_outer_spec {n : ℕ} (A : Matrix (Fin n) (Fin n) ℝ) (i : Fin n) (s : LDUState n)
    (h : LDUInv A i s) : LDUInv A (i + 1) (lduOuter A s i) := by
  set s1 : LDUState n := { s with D := npSetEntry s.D i i (A i i - lduDot s i i i) } with hs1
  have hdot1 : ∀ r c, lduDot s1 i r c = lduDot s i r c := fun r c =>
    lduDot_congr (fun _ _ => rfl) (fun k hk => by
      rw [hs1]
      simp only [npSetEntry_apply]
      rw [if_neg]
      rintro ⟨rfl, -⟩
      exact lt_irrefl _ hk) (fun _ _ => rfl)
  obtain ⟨h1, h2, h3⟩ := ldu_inner_spec A i s1 ((List.finRange n).filter fun j => i < j)
  have ht : lduOuter A s i = ((List.finRange n).filter fun j => i < j).foldl (lduInner A i) s1 := rfl
  rw [← ht] at h1 h2 h3
  have hDi : s1.D i i = A i i - lduDot s i i i := by simp [hs1, npSetEntry_apply]
  have hDa : ∀ a b, (a ≠ i ∨ b ≠ i) → (lduOuter A s i).D a b = s.D a b := fun a b hab => by
    rw [h1]
    simp only [hs1, npSetEntry_apply]
    rw [if_neg]
    rintro ⟨rfl, rfl⟩
    simp at hab
  have hL : ∀ a b, ¬ (b = i ∧ i < a) → (lduOuter A s i).L a b = s.L a b := fun a b hab => by
    rw [h2, if_neg]
    simpa using hab
  have hU : ∀ a b, ¬ (a = i ∧ i < b) → (lduOuter A s i).U a b = s.U a b := fun a b hab => by
    rw [h3, if_neg]
    simpa using hab
  have hdot : ∀ (i' r c : Fin n), i' ≤ i → lduDot (lduOuter A s i) i' r c = lduDot s i' r c :=
    fun i' r c hi => lduDot_congr
      (fun k hk => hL _ _ fun hh => absurd (hh.1 ▸ hk) (not_lt.mpr hi))
      (fun k hk => hDa _ _ (Or.inl fun hh => absurd (hh ▸ hk) (not_lt.mpr hi)))
      (fun k hk => hU _ _ fun hh => absurd (hh.1 ▸ hk) (not_lt.mpr hi))
  refine ⟨?_, ?_, ?_, ?_, ?_, ?_, ?_, ?_⟩
  · intro a b hab
    rw [hDa]
    · exact h.diag a b hab
    · by_contra hh
      push Not at hh
      exact hab (hh.1.trans hh.2.symm)
  · intro a
    rw [hL _ _ (by rintro ⟨rfl, hh⟩; exact lt_irrefl _ hh)]
    exact h.Ldiag a
  · intro a
    rw [hU _ _ (by rintro ⟨rfl, hh⟩; exact lt_irrefl _ hh)]
    exact h.Udiag a
  · intro a b hab
    rw [hL _ _ (by rintro ⟨rfl, hh⟩; exact lt_asymm hab hh)]
    exact h.Lzero a b hab
  · intro a b hab
    rw [hU _ _ (by rintro ⟨rfl, hh⟩; exact lt_asymm hab hh)]
    exact h.Uzero a b hab
  · intro i' hi'
    rw [hdot i' _ _ (Fin.le_def.mpr (by omega))]
    by_cases hii : i' = i
    · subst hii
      rw [h1, hDi]
    · rw [hDa _ _ (Or.inl hii)]
      exact h.D i' (by have := Fin.val_ne_of_ne hii; omega)
  · intro i' j hi' hj
    rw [hdot i' _ _ (Fin.le_def.mpr (by omega))]
    by_cases hii : i' = i
    · subst hii
      rw [h2, if_pos ⟨rfl, by simpa using hj⟩, h1, hdot1]
    · rw [hL _ _ (fun hh => hii hh.1), hDa _ _ (Or.inl hii)]
      exact h.L i' j (by have := Fin.val_ne_of_ne hii; omega) hj
  · intro i' j hi' hj
    rw [hdot i' _ _ (Fin.le_def.mpr (by omega))]
    by_cases hii : i' = i
    · subst hii
      rw [h3, if_pos ⟨rfl, by simpa using hj⟩, h1, hdot1]
    · rw [hU _ _ (fun hh => hii hh.1), hDa _ _ (Or.inl hii)]
      exact h.U i' j (by have := Fin.val_ne_of_ne hii; omega) hj

theorem ldu_inv {n : ℕ} (A : Matrix (Fin n) (Fin n) ℝ) :
    ∃ s, lduFactorization A = .ok s ∧ LDUInv A n s := by
  refine ⟨(List.finRange n).foldl (lduOuter A) ⟨1, 0, 1⟩, by simp [lduFactorization], ?_⟩
  refine foldl_finRange_induction _ _ (LDUInv A) ?_ fun i s h => ldu_outer_spec A i s h
  refine ⟨fun _ _ _ => rfl, fun a => by simp, fun a => by simp, fun a b h => ?_, fun a b h => ?_,
    fun i hi => absurd hi (by omega), fun i _ hi => absurd hi (by omega),
    fun i _ hi => absurd hi (by omega)⟩
  · exact Matrix.one_apply_ne h.ne
  · exact Matrix.one_apply_ne h.ne'

/-- Entries of the product `L D U` whose row or column has a non-zero pivot, and the diagonal. -/
theorem ldu_entry {n : ℕ} {A : Matrix (Fin n) (Fin n) ℝ} {s : LDUState n} (h : LDUInv A n s)
    (a b : Fin n) (hp : a ≠ b → s.D (min a b) (min a b) ≠ 0) :
    ∑ k, s.L a k * s.D k k * s.U k b = A a b := by
  -- the terms before `i`, the term `i` and the vanishing rest
  have e2 : ∀ i : Fin n, (∀ k, i < k → s.L a k * s.D k k * s.U k b = 0) →
      ∑ k, s.L a k * s.D k k * s.U k b = lduDot s i a b + s.L a i * s.D i i * s.U i b := by
    intro i hz
    unfold lduDot
    rw [← Finset.sum_filter_add_sum_filter_not Finset.univ (fun k => k < i)]
    congr 1
    refine Finset.sum_eq_single i (fun k hk hne => ?_) (by simp)
    exact hz k (lt_of_le_of_ne (by simpa using hk) (Ne.symm hne))
  rcases lt_trichotomy a b with hab | hab | hab
  · rw [e2 a (fun k hk => by rw [h.Lzero a k hk]; ring), h.Ldiag, h.U a b a.isLt hab]
    have := hp hab.ne
    rw [min_eq_left hab.le] at this
    field_simp
    ring
  · subst hab
    rw [e2 a (fun k hk => by rw [h.Lzero a k hk]; ring), h.Ldiag, h.Udiag, h.D a a.isLt]
    ring
  · rw [e2 b (fun k hk => by rw [h.Uzero k b hk]; ring), h.Udiag, h.L b a b.isLt hab]
    have := hp hab.ne'
    rw [min_eq_right hab.le] at this
    field_simp
    ring

theorem ldu_prod {n : ℕ} {A : Matrix (Fin n) (Fin n) ℝ} {s : LDUState n} (h : LDUInv A n s)
    (hp : ∀ i : Fin n, (i : ℕ) + 1 < n → s.D i i ≠ 0) : s.L * s.D * s.U = A := by
  ext a b
  have e1 : (s.L * s.D * s.U) a b = ∑ k, s.L a k * s.D k k * s.U k b := by
    rw [Matrix.mul_apply]
    refine Finset.sum_congr rfl fun k _ => ?_
    congr 1
    rw [Matrix.mul_apply]
    refine Finset.sum_eq_single k (fun j _ hj => ?_) (by simp)
    rw [h.diag j k hj, mul_zero]
  rw [e1]
  refine ldu_entry h a b fun hab => hp _ ?_
  rcases lt_or_gt_of_ne hab with hlt | hlt
  · rw [min_eq_left hlt.le]
    have := Fin.lt_def.mp hlt
    omega
  · rw [min_eq_right hlt.le]
    have := Fin.lt_def.mp hlt
    omega

/-- Leading principal minor of size `k`. -/
noncomputable def leadingMinor {n : ℕ} (A : Matrix (Fin n) (Fin n) ℝ) (k : ℕ) (hk : k ≤ n) : ℝ :=
  (A.submatrix (Fin.castLE hk) (Fin.castLE hk)).det

theorem ldu_minor {n : ℕ} {A : Matrix (Fin n) (Fin n) ℝ} {s : LDUState n} (h : LDUInv A n s)
    (k : ℕ) (hk : k ≤ n) (hp : ∀ i : Fin n, (i : ℕ) + 1 < k → s.D i i ≠ 0) :
    leadingMinor A k hk = ∏ i : Fin k, s.D (Fin.castLE hk i) (Fin.castLE hk i) := by
  set e := Fin.castLE hk with he
  have hmono : ∀ {a b : Fin k}, a < b → e a < e b := fun hab => hab
  have hprod : A.submatrix e e = s.L.submatrix e e * Matrix.diagonal (fun i => s.D (e i) (e i)) *
      s.U.submatrix e e := by
    ext a b
    rw [Matrix.submatrix_apply, ← ldu_entry h (e a) (e b), Matrix.mul_apply]
    · simp only [Matrix.mul_diagonal, Matrix.submatrix_apply]
      -- indices outside the block contribute nothing
      rw [← Finset.sum_filter_add_sum_filter_not Finset.univ (fun j : Fin n => (j : ℕ) < k)]
      have hz : ∑ j ∈ Finset.univ.filter (fun j : Fin n => ¬ (j : ℕ) < k),
          s.L (e a) j * s.D j j * s.U j (e b) = 0 := by
        refine Finset.sum_eq_zero fun j hj => ?_
        have hj : ¬ (j : ℕ) < k := by simpa using hj
        rw [h.Lzero (e a) j (Fin.lt_def.mpr (by have := a.isLt; simp [he]; omega))]
        ring
      rw [hz, add_zero]
      symm
      refine Finset.sum_bij (fun j _ => e j) ?_ ?_ ?_ ?_
      · intro j _
        simp [he]
      · intro a _ b _ hab
        exact Fin.castLE_injective hk hab
      · intro j hj
        have hj : (j : ℕ) < k := by simpa using hj
        exact ⟨⟨j, hj⟩, by simp, by simp [he]⟩
      · intro j _
        rfl
    · intro hab
      refine hp _ ?_
      rcases lt_or_gt_of_ne hab with hlt | hlt
      · rw [min_eq_left hlt.le]
        have := Fin.lt_def.mp hlt
        have h2 : ((e b : Fin n) : ℕ) < k := by simp [he]
        omega
      · rw [min_eq_right hlt.le]
        have := Fin.lt_def.mp hlt
        have h2 : ((e a : Fin n) : ℕ) < k := by simp [he]
        omega
  unfold leadingMinor
  rw [hprod, Matrix.det_mul, Matrix.det_mul, Matrix.det_diagonal]
  have h1 : (s.L.submatrix e e).det = 1 := by
    rw [Matrix.det_of_isLowerTriangular (s.L.submatrix e e)
      (fun a b hab => h.Lzero _ _ (hmono (OrderDual.toDual_lt_toDual.mp hab)))]
    simp [h.Ldiag]
  have h2 : (s.U.submatrix e e).det = 1 := by
    rw [Matrix.det_of_isUpperTriangular (M := s.U.submatrix e e) (fun a b hab => h.Uzero _ _ (hmono hab))]
    simp [h.Udiag]
  rw [h1, h2]
  ring

/-- The pivots that are divided by are non-zero if and only if the leading principal minors are. -/
theorem ldu_pivots_iff {n : ℕ} {A : Matrix (Fin n) (Fin n) ℝ} {s : LDUState n} (h : LDUInv A n s) :
    (∀ i : Fin n, (i : ℕ) + 1 < n → s.D i i ≠ 0) ↔
      ∀ k (hk : k < n), leadingMinor A k hk.le ≠ 0 := by
  constructor
  · intro hp k hk
    rw [ldu_minor h k hk.le fun i hi => hp i (by omega)]
    refine Finset.prod_ne_zero_iff.mpr fun i _ => hp _ ?_
    have := i.isLt
    simp
    omega
  · intro hm i
    obtain ⟨i, hi⟩ := i
    induction i using Nat.strong_induction_on with
    | _ i ih =>
      intro hin
      simp only at hin
      have := hm (i + 1) hin
      rw [ldu_minor h (i + 1) (by omega) fun j hj => ih j (by omega) j.isLt (by simp; omega)] at this
      have := Finset.prod_ne_zero_iff.mp this ⟨i, by omega⟩ (Finset.mem_univ _)
      simpa using this

end QMat
