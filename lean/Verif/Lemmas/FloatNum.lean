import Verif.Model.FloatNum
import Verif.Lemmas.Rounding
import Verif.Lemmas.LDU

/-!
# Invariants of the loops of `lduFactorization` in rounded arithmetic
-/

namespace QMat

open Finset Matrix

namespace Rounding

variable {n : ℕ} {R : Rounding}

theorem LduDot.congr {s t : LDUState n} {i r c : Fin n} {a : ℝ} (h : R.LduDot s i r c a)
    (hL : ∀ k < i, s.L r k = t.L r k) (hD : ∀ k < i, s.D k k = t.D k k) (hU : ∀ k < i, s.U k c = t.U k c) : R.LduDot t i r c a := by
  unfold LduDot at h ⊢
  have e : (fun k : {k : Fin n // k < i} => R.fl (R.fl (t.L r k * t.D k k) * t.U k c)) =
      fun k : {k : Fin n // k < i} => R.fl (R.fl (s.L r k * s.D k k) * s.U k c) := by
    funext k
    rw [hL k k.2, hD k k.2, hU k k.2]
  rw [e]
  exact h

/-- The inner loop. -/
theorem lduInner_spec {A : Matrix (Fin n) (Fin n) ℝ} {i : Fin n} {s t : LDUState n} {l : List (Fin n)} (hl : l.Nodup)
    (h : R.LduInner A i s l t) :
    t.D = s.D ∧
    (∀ a b, ¬ (b = i ∧ a ∈ l) → t.L a b = s.L a b) ∧ (∀ a ∈ l, ∃ v, R.LduDot s i a i v ∧ t.L a i = R.fl (R.fl (A a i - v) / s.D i i)) ∧
    (∀ a b, ¬ (a = i ∧ b ∈ l) → t.U a b = s.U a b) ∧ (∀ b ∈ l, ∃ v, R.LduDot s i i b v ∧ t.U i b = R.fl (R.fl (A i b - v) / s.D i i)) := by
  induction h with
  | done s => simp
  | @step s t j l a b ha hb ht ih =>
    obtain ⟨hj, hl'⟩ := List.nodup_cons.1 hl
    obtain ⟨h1, h2, h3, h4, h5⟩ := ih hl'
    set s' : LDUState n := { s with L := npSetEntry s.L j i (R.fl (R.fl (A j i - a) / s.D i i))
                                    U := npSetEntry s.U i j (R.fl (R.fl (A i j - b) / s.D i i)) } with hs'
    have hL : ∀ x y, s'.L x y = if x = j ∧ y = i then R.fl (R.fl (A j i - a) / s.D i i) else s.L x y := fun _ _ => rfl
    have hU : ∀ x y, s'.U x y = if x = i ∧ y = j then R.fl (R.fl (A i j - b) / s.D i i) else s.U x y := fun _ _ => rfl
    have hdot : ∀ {r c v}, R.LduDot s' i r c v → R.LduDot s i r c v := fun h => h.congr
      (fun k hk => by rw [hL, if_neg]; rintro ⟨-, rfl⟩; exact lt_irrefl _ hk) (fun _ _ => rfl)
      (fun k hk => by rw [hU, if_neg]; rintro ⟨rfl, -⟩; exact lt_irrefl _ hk)
    have hb' : R.LduDot s i i j b := hb.congr (fun k hk => by
      change (if i = j ∧ k = i then _ else s.L i k) = _
      rw [if_neg]
      rintro ⟨-, rfl⟩
      exact lt_irrefl _ hk) (fun _ _ => rfl) (fun _ _ => rfl)
    refine ⟨h1, fun x y hxy => ?_, fun x hx => ?_, fun x y hxy => ?_, fun y hy => ?_⟩
    · rw [h2 x y (fun h => hxy ⟨h.1, List.mem_cons_of_mem _ h.2⟩), hL, if_neg]
      rintro ⟨rfl, rfl⟩
      exact hxy ⟨rfl, List.mem_cons_self⟩
    · rcases List.mem_cons.1 hx with rfl | hx
      · refine ⟨a, ha, ?_⟩
        rw [h2 x i (fun h => hj h.2), hL, if_pos ⟨rfl, rfl⟩]
      · obtain ⟨v, hv, he⟩ := h3 x hx
        exact ⟨v, hdot hv, he⟩
    · rw [h4 x y (fun h => hxy ⟨h.1, List.mem_cons_of_mem _ h.2⟩), hU, if_neg]
      rintro ⟨rfl, rfl⟩
      exact hxy ⟨rfl, List.mem_cons_self⟩
    · rcases List.mem_cons.1 hy with rfl | hy
      · refine ⟨b, hb', ?_⟩
        rw [h4 i y (fun h => hj h.2), hU, if_pos ⟨rfl, rfl⟩]
      · obtain ⟨v, hv, he⟩ := h5 y hy
        exact ⟨v, hdot hv, he⟩

/-- What holds after the outer loop has treated the indices below `t`. -/
structure LduInv (R : Rounding) (A : Matrix (Fin n) (Fin n) ℝ) (t : ℕ) (s : LDUState n) : Prop where
  diag : ∀ a b, a ≠ b → s.D a b = 0
  Ldiag : ∀ a, s.L a a = 1
  Udiag : ∀ a, s.U a a = 1
  Lzero : ∀ a b, a < b → s.L a b = 0
  Uzero : ∀ a b, b < a → s.U a b = 0
  D : ∀ i : Fin n, (i : ℕ) < t → ∃ v, R.LduDot s i i i v ∧ s.D i i = R.fl (A i i - v)
  L : ∀ i j : Fin n, (i : ℕ) < t → i < j → ∃ v, R.LduDot s i j i v ∧ s.L j i = R.fl (R.fl (A j i - v) / s.D i i)
  U : ∀ i j : Fin n, (i : ℕ) < t → i < j → ∃ v, R.LduDot s i i j v ∧ s.U i j = R.fl (R.fl (A i j - v) / s.D i i)

theorem lduOuter_step {A : Matrix (Fin n) (Fin n) ℝ} {i : Fin n} {s t : LDUState n} {a : ℝ} (h : R.LduInv A i s) (ha : R.LduDot s i i i a)
    (ht : R.LduInner A i { s with D := npSetEntry s.D i i (R.fl (A i i - a)) } ((List.finRange n).filter fun j => i < j) t) :
    R.LduInv A (i + 1) t := by
  set s1 : LDUState n := { s with D := npSetEntry s.D i i (R.fl (A i i - a)) } with hs1
  obtain ⟨h1, h2, h3, h4, h5⟩ := lduInner_spec ((List.nodup_finRange n).filter _) ht
  have hmem : ∀ x, x ∈ (List.finRange n).filter (fun j => i < j) ↔ i < x := fun x => by simp
  simp only [hmem] at h2 h3 h4 h5
  have hDi : s1.D i i = R.fl (A i i - a) := by simp [hs1, npSetEntry_apply]
  have hDa : ∀ x y, (x ≠ i ∨ y ≠ i) → t.D x y = s.D x y := fun x y hxy => by
    rw [h1]
    simp only [hs1, npSetEntry_apply]
    rw [if_neg]
    rintro ⟨rfl, rfl⟩
    simp at hxy
  have hdot : ∀ {i' r c v}, i' ≤ i → R.LduDot s i' r c v → R.LduDot t i' r c v := fun hi hv => hv.congr
    (fun k hk => (h2 _ _ fun hh => absurd (hh.1 ▸ hk) (not_lt.mpr hi)).symm)
    (fun k hk => (hDa _ _ (Or.inl fun hh => absurd (hh ▸ hk) (not_lt.mpr hi))).symm)
    (fun k hk => (h4 _ _ fun hh => absurd (hh.1 ▸ hk) (not_lt.mpr hi)).symm)
  have hdot1 : ∀ {r c v}, R.LduDot s1 i r c v → R.LduDot s i r c v := fun hv => hv.congr (fun _ _ => rfl) (fun k hk => by
    simp only [hs1, npSetEntry_apply]
    rw [if_neg]
    rintro ⟨rfl, -⟩
    exact lt_irrefl _ hk) (fun _ _ => rfl)
  refine ⟨fun x y hxy => ?_, fun x => ?_, fun x => ?_, fun x y hxy => ?_, fun x y hxy => ?_, fun i' hi' => ?_, fun i' j hi' hj => ?_,
    fun i' j hi' hj => ?_⟩
  · rw [hDa]
    · exact h.diag x y hxy
    · by_contra hh
      push Not at hh
      exact hxy (hh.1.trans hh.2.symm)
  · rw [h2 _ _ (by rintro ⟨rfl, hh⟩; exact lt_irrefl _ hh)]
    exact h.Ldiag x
  · rw [h4 _ _ (by rintro ⟨rfl, hh⟩; exact lt_irrefl _ hh)]
    exact h.Udiag x
  · rw [h2 _ _ (by rintro ⟨rfl, hh⟩; exact lt_asymm hxy hh)]
    exact h.Lzero x y hxy
  · rw [h4 _ _ (by rintro ⟨rfl, hh⟩; exact lt_asymm hxy hh)]
    exact h.Uzero x y hxy
  · by_cases hii : i' = i
    · subst hii
      exact ⟨a, hdot le_rfl ha, by rw [h1, hDi]⟩
    · obtain ⟨v, hv, he⟩ := h.D i' (by have := Fin.val_ne_of_ne hii; omega)
      exact ⟨v, hdot (Fin.le_def.mpr (by omega)) hv, by rw [hDa _ _ (Or.inl hii), he]⟩
  · by_cases hii : i' = i
    · subst hii
      obtain ⟨v, hv, he⟩ := h3 j hj
      exact ⟨v, hdot le_rfl (hdot1 hv), by rw [he, h1]⟩
    · obtain ⟨v, hv, he⟩ := h.L i' j (by have := Fin.val_ne_of_ne hii; omega) hj
      exact ⟨v, hdot (Fin.le_def.mpr (by omega)) hv, by rw [h2 _ _ (fun hh => hii hh.1), hDa _ _ (Or.inl hii), he]⟩
  · by_cases hii : i' = i
    · subst hii
      obtain ⟨v, hv, he⟩ := h5 j hj
      exact ⟨v, hdot le_rfl (hdot1 hv), by rw [he, h1]⟩
    · obtain ⟨v, hv, he⟩ := h.U i' j (by have := Fin.val_ne_of_ne hii; omega) hj
      exact ⟨v, hdot (Fin.le_def.mpr (by omega)) hv, by rw [h4 _ _ (fun hh => hii hh.1), hDa _ _ (Or.inl hii), he]⟩

theorem lduOuter_spec {A : Matrix (Fin n) (Fin n) ℝ} {s s' : LDUState n} {l : List (Fin n)} (h : R.LduOuter A s l s') :
    ∀ t, t ≤ n → l = (List.finRange n).drop t → R.LduInv A t s → R.LduInv A n s' := by
  induction h with
  | done s =>
    intro t ht hl hs
    have : n ≤ t := by
      have := congrArg List.length hl
      simp at this
      omega
    rw [show t = n by omega] at hs
    exact hs
  | @step s t1 t' i l a ha ht1 ht' ih =>
    intro t ht hl hs
    have htn : t < n := by
      have := congrArg List.length hl
      simp at this
      omega
    have hd := List.drop_eq_getElem_cons (l := List.finRange n) (i := t) (by simpa using htn)
    rw [hd] at hl
    simp only [List.getElem_finRange, List.cons.injEq] at hl
    obtain ⟨rfl, rfl⟩ := hl
    exact ih (t + 1) htn rfl (lduOuter_step (i := ⟨t, htn⟩) hs ha ht1)

/-- The result of `lduFactorization`. -/
theorem LduFactorization.inv {A : Matrix (Fin n) (Fin n) ℝ} {s : LDUState n} (h : R.LduFactorization A s) : R.LduInv A n s := by
  refine lduOuter_spec h 0 (Nat.zero_le n) rfl ⟨fun _ _ _ => rfl, fun a => by simp, fun a => by simp, fun a b h => ?_, fun a b h => ?_,
    fun i hi => absurd hi (by omega), fun i _ hi => absurd hi (by omega), fun i _ hi => absurd hi (by omega)⟩
  · exact Matrix.one_apply_ne h.ne
  · exact Matrix.one_apply_ne h.ne'

/-- Every matrix has a result. -/
theorem LduFactorization.exists (R : Rounding) (A : Matrix (Fin n) (Fin n) ℝ) : ∃ s, R.LduFactorization A s := by
  have hin : ∀ (i : Fin n) (l : List (Fin n)) (s : LDUState n), ∃ t, R.LduInner A i s l t := by
    intro i l
    induction l with
    | nil => exact fun s => ⟨s, .done s⟩
    | cons j l ih =>
      intro s
      obtain ⟨a, ha⟩ := NpSum.exists (R := R) (fun k : {k : Fin n // k < i} => R.fl (R.fl (s.L j k * s.D k k) * s.U k i))
      set s1 : LDUState n := { s with L := npSetEntry s.L j i (R.fl (R.fl (A j i - a) / s.D i i)) } with hs1
      obtain ⟨b, hb⟩ := NpSum.exists (R := R) (fun k : {k : Fin n // k < i} => R.fl (R.fl (s1.L i k * s1.D k k) * s1.U k j))
      obtain ⟨t, ht⟩ := ih { s with L := npSetEntry s.L j i (R.fl (R.fl (A j i - a) / s.D i i))
                                    U := npSetEntry s.U i j (R.fl (R.fl (A i j - b) / s.D i i)) }
      exact ⟨t, .step ha hb ht⟩
  have hout : ∀ (l : List (Fin n)) (s : LDUState n), ∃ t, R.LduOuter A s l t := by
    intro l
    induction l with
    | nil => exact fun s => ⟨s, .done s⟩
    | cons i l ih =>
      intro s
      obtain ⟨a, ha⟩ := NpSum.exists (R := R) (fun k : {k : Fin n // k < i} => R.fl (R.fl (s.L i k * s.D k k) * s.U k i))
      obtain ⟨t, ht⟩ := hin i ((List.finRange n).filter fun j => i < j) { s with D := npSetEntry s.D i i (R.fl (A i i - a)) }
      obtain ⟨t', ht'⟩ := ih t
      exact ⟨t', .step ha ht ht'⟩
  exact hout _ _

/-- The sum of the products, with a factor for the roundings of every term. -/
theorem LduDot.sum {s : LDUState n} {i r c : Fin n} {v : ℝ} (h : R.LduDot s i r c v) :
    ∃ φ : Fin n → ℝ, (∀ k, Within ((n + 1) * R.ω) (φ k)) ∧ v = ∑ k ∈ univ.filter (fun k => k < i), s.L r k * s.D k k * s.U k c * φ k := by
  have hω := R.ω_nonneg
  have h1 : (0:ℝ) ≤ (n + 1) * R.ω := by positivity
  rcases isEmpty_or_nonempty {k : Fin n // k < i} with he | hne
  · refine ⟨fun _ => 1, fun _ => .one h1, ?_⟩
    rcases h with ⟨-, rfl⟩ | h
    · symm
      refine Finset.sum_eq_zero fun k hk => ?_
      exact (he.false ⟨k, by simpa using hk⟩).elim
    · have := h.card_pos
      rw [Finset.card_univ, Fintype.card_eq_zero] at this
      omega
  · obtain ⟨φ, hφ, hv⟩ := NpSum.sum h Fintype.card_pos
    choose p hp hp' using fun k : {k : Fin n // k < i} => R.fl_eq (s.L r k * s.D k k)
    choose q hq hq' using fun k : {k : Fin n // k < i} => R.fl_eq (R.fl (s.L r k * s.D k k) * s.U k c)
    refine ⟨fun k => if hk : k < i then p ⟨k, hk⟩ * q ⟨k, hk⟩ * φ ⟨k, hk⟩ else 1, fun k => ?_, ?_⟩
    · by_cases hk : k < i
      · simp only [hk, dite_true]
        refine (((hp ⟨k, hk⟩).mul (hq ⟨k, hk⟩)).mul (hφ ⟨k, hk⟩)).mono ?_
        have hc : (Fintype.card {k : Fin n // k < i} : ℝ) ≤ n := by
          have := Fintype.card_subtype_le fun k : Fin n => k < i
          rw [Fintype.card_fin] at this
          exact_mod_cast this
        have := mul_le_mul_of_nonneg_right hc hω
        linarith
      · simp only [hk, dite_false]
        exact .one h1
    · rw [hv, ← Finset.sum_subtype_eq_sum_filter]
      refine Finset.sum_bij (fun k _ => k) (fun k _ => ?_) (fun _ _ _ _ h => h) (fun k _ => ⟨k, Finset.mem_univ _, rfl⟩) fun k _ => ?_
      · exact Finset.mem_subtype.2 (Finset.mem_univ _)
      · rw [hq' k, hp' k]
        simp only [k.2, dite_true, Subtype.coe_eta]
        ring

end Rounding

end QMat
