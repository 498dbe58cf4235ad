import Verif.Props.Num

/-!
# C64: `numericalOrder` on arrays of any sizes and entries
-/

namespace QMat

theorem getD_lt_length {l : List ℝ} {i : ℕ} (h : i < l.length) : l.getD i 0 = l[i] := by
  simp [List.getD, h]

/-- The sum of squares vanishes exactly if all step numbers agree. -/
theorem sX_eq_zero_iff {n : ℕ} (s : Fin n → ℝ) (hpos : ∀ i, 0 < s i) :
    ∑ i, (orderX s i - npMean (orderX s)) ^ 2 = 0 ↔ ∀ i j, s i = s j := by
  constructor
  · intro h
    by_contra hne
    push Not at hne
    exact absurd h (sX_pos (orderX s) (orderX_ne hpos hne)).ne'
  · intro h
    refine Finset.sum_eq_zero fun i _ => ?_
    have hc : ∀ j, orderX s j = orderX s i := fun j => by simp only [orderX, h j i]
    have hn : (n:ℝ) ≠ 0 := by exact_mod_cast i.pos.ne'
    have : npMean (orderX s) = orderX s i := by
      simp only [npMean, hc, Finset.sum_const, Finset.card_univ, Fintype.card_fin, nsmul_eq_mul]
      field_simp
    rw [this, sub_self]; norm_num

theorem npBroadcast_mem {l : List ℝ} {N i : ℕ} (hl : l ≠ []) (h : l.length = N ∨ l.length = 1) (hi : i < N) :
    npBroadcast l i ∈ l := by
  have h0 : (if l.length = 1 then 0 else i) < l.length := by
    split
    · omega
    · rcases h with h | h
      · omega
      · contradiction
  rw [npBroadcast, getD_lt_length h0]
  exact List.getElem_mem _

theorem npBroadcast_ofFn {n : ℕ} (s : Fin n → ℝ) (i : Fin n) : npBroadcast (List.ofFn s) i = s i := by
  have h0 : (if (List.ofFn s).length = 1 then 0 else (i : ℕ)) = i := by
    split
    · next h => simp at h; omega
    · rfl
  rw [npBroadcast, h0, getD_lt_length (by simp)]
  simp

/-- C64 (inputs): `numericalOrder` raises `ValueError` exactly for arrays of different sizes none of which is one; both results are
numbers exactly if the arrays are not empty, all entries are positive, two step numbers differ, and there is one error for each of them or
only one error; in all other cases the order is `nan`. -/
theorem C64_inputs (nSteps err : List ℝ) :
    (∀ x, numericalOrderNp nSteps err = .error x ↔
      x = .valueError ∧ nSteps.length ≠ err.length ∧ nSteps.length ≠ 1 ∧ err.length ≠ 1) ∧
    ((∃ p r, numericalOrderNp nSteps err = .ok (some p, some r)) ↔
      err ≠ [] ∧ (nSteps.length = err.length ∨ err.length = 1) ∧ (∀ s ∈ nSteps, 0 < s) ∧ (∀ e ∈ err, 0 < e) ∧
      ∃ s ∈ nSteps, ∃ s' ∈ nSteps, s ≠ s') ∧
    ∀ r, numericalOrderNp nSteps err = .ok r → r.1 = none ∨ ∃ p q, r = (some p, some q) := by
  unfold numericalOrderNp
  by_cases h1 : nSteps.length ≠ err.length ∧ nSteps.length ≠ 1 ∧ err.length ≠ 1
  · rw [if_pos h1]
    refine ⟨fun x => ?_, ⟨fun ⟨p, r, h⟩ => by simp at h, fun ⟨_, h, _⟩ => by tauto⟩, fun r h => by simp at h⟩
    simp only [Except.error.injEq]
    exact ⟨fun h => ⟨h.symm, h1⟩, fun h => h.1.symm⟩
  rw [if_neg h1]
  by_cases h2 : nSteps.length = 1 ∧ err.length = 0
  · rw [if_pos h2]
    have he : err = [] := List.length_eq_zero_iff.1 h2.2
    exact ⟨fun x => ⟨fun h => by simp at h, fun h => absurd h.2 h1⟩,
      ⟨fun ⟨p, r, h⟩ => by simp at h, fun h => absurd he h.1⟩, fun r h => Or.inl (by simp at h; rw [← h])⟩
  rw [if_neg h2]
  by_cases h3 : nSteps = [] ∨ err = [] ∨ (∃ s ∈ nSteps, s ≤ 0) ∨ ∃ e ∈ err, e ≤ 0
  · rw [if_pos h3]
    refine ⟨fun x => ⟨fun h => by simp at h, fun h => absurd h.2 h1⟩,
      ⟨fun ⟨p, r, h⟩ => by simp at h, fun ⟨a, b, c, d, s, hs, s', hs', e⟩ => ?_⟩,
      fun r h => Or.inl (by simp at h; rw [← h])⟩
    rcases h3 with h | h | ⟨x, hx, hx0⟩ | ⟨x, hx, hx0⟩
    · rw [h] at hs; simp at hs
    · exact absurd h a
    · exact absurd (c x hx) (not_lt.2 hx0)
    · exact absurd (d x hx) (not_lt.2 hx0)
  rw [if_neg h3]
  push Not at h3
  obtain ⟨hs0, he0, hs, he⟩ := h3
  set N := if nSteps.length = 1 then err.length else nSteps.length with hN
  have hNs : nSteps.length = N ∨ nSteps.length = 1 := by
    rw [hN]; split
    · right; assumption
    · left; rfl
  have hpos : ∀ i : Fin N, 0 < npBroadcast nSteps i := fun i => hs _ (npBroadcast_mem hs0 hNs i.isLt)
  have hdiff : (∀ i j : Fin N, npBroadcast nSteps i = npBroadcast nSteps j) ↔ ∀ s ∈ nSteps, ∀ s' ∈ nSteps, s = s' := by
    constructor
    · intro h s hsm s' hsm'
      by_cases hl : nSteps.length = 1
      · obtain ⟨a, rfl⟩ := List.length_eq_one_iff.1 hl
        simp at hsm hsm'; rw [hsm, hsm']
      · obtain ⟨i, hi, rfl⟩ := List.mem_iff_getElem.1 hsm
        obtain ⟨j, hj, rfl⟩ := List.mem_iff_getElem.1 hsm'
        have hNl : N = nSteps.length := by rw [hN, if_neg hl]
        have := h ⟨i, by omega⟩ ⟨j, by omega⟩
        simp only [npBroadcast, if_neg hl, getD_lt_length hi, getD_lt_length hj] at this
        exact this
    · intro h i j
      exact h _ (npBroadcast_mem hs0 hNs i.isLt) _ (npBroadcast_mem hs0 hNs j.isLt)
  have hz := sX_eq_zero_iff (fun i : Fin N => npBroadcast nSteps i) hpos
  by_cases h4 : ∑ i, (orderX (fun i : Fin N => npBroadcast nSteps i) i - npMean (orderX fun i : Fin N => npBroadcast nSteps i)) ^ 2 = 0
  · simp only [if_pos h4]
    refine ⟨fun x => ⟨fun h => by simp at h, fun h => absurd h.2 h1⟩,
      ⟨fun ⟨p, r, h⟩ => by simp at h, fun ⟨_, _, _, _, s, hsm, s', hsm', hne⟩ =>
        absurd (hdiff.1 (hz.1 h4) s hsm s' hsm') hne⟩, fun r h => Or.inl (by simp at h; rw [← h])⟩
  · simp only [if_neg h4]
    have hd : ∃ s ∈ nSteps, ∃ s' ∈ nSteps, s ≠ s' := by
      by_contra hc
      push Not at hc
      exact h4 (hz.2 (hdiff.2 hc))
    refine ⟨fun x => ⟨fun h => by simp at h, fun h => absurd h.2 h1⟩,
      ⟨fun _ => ⟨he0, ?_, hs, he, hd⟩, fun _ => ⟨_, _, rfl⟩⟩, fun r h => Or.inr ⟨_, _, (by simpa using h.symm)⟩⟩
    obtain ⟨s, hsm, s', hsm', hne⟩ := hd
    have : nSteps.length ≠ 1 := by
      intro hl
      obtain ⟨a, rfl⟩ := List.length_eq_one_iff.1 hl
      simp at hsm hsm'
      exact hne (by rw [hsm, hsm'])
    by_contra hc
    push Not at hc
    exact h1 ⟨hc.1, this, hc.2⟩

/-- C64 (inputs): arrays of the same size of positive numbers with two different step numbers give the regression of `C64_regression`. -/
theorem C64_arrays {n : ℕ} (nSteps err : Fin n → ℝ) (hpos : ∀ i, 0 < nSteps i) (herr : ∀ i, 0 < err i)
    (hdiff : ∃ i j, nSteps i ≠ nSteps j) : numericalOrderNp (List.ofFn nSteps) (List.ofFn err) =
      .ok (some (numericalOrder nSteps err).1, some (numericalOrder nSteps err).2) := by
  obtain ⟨i0, j0, h0⟩ := hdiff
  have hn0 : n ≠ 0 := i0.pos.ne'
  have hn1 : n ≠ 1 := fun h => h0 (by congr 1; apply Fin.ext; omega)
  unfold numericalOrderNp
  have hne : ∀ f : Fin n → ℝ, List.ofFn f ≠ [] := fun f h => by
    have := congrArg List.length h; simp at this; exact hn0 this
  rw [if_neg (by simp), if_neg (by simp [hn0]), if_neg (by
    rintro (h | h | ⟨s, hs, h⟩ | ⟨s, hs, h⟩)
    · exact hne _ h
    · exact hne _ h
    · obtain ⟨i, rfl⟩ := List.mem_ofFn.1 hs; exact absurd (hpos i) (not_lt.2 h)
    · obtain ⟨i, rfl⟩ := List.mem_ofFn.1 hs; exact absurd (herr i) (not_lt.2 h))]
  have hN : (if (List.ofFn nSteps).length = 1 then (List.ofFn err).length else (List.ofFn nSteps).length) = n := by
    simp
  have key : ∀ N, N = n → ∀ (s e : Fin N → ℝ), (s = fun i : Fin N => npBroadcast (List.ofFn nSteps) i) →
      (e = fun i : Fin N => npBroadcast (List.ofFn err) i) →
      (if ∑ i, (orderX s i - npMean (orderX s)) ^ 2 = 0 then (.ok (none, none) : PyResult (Option ℝ × Option ℝ))
        else .ok (some (numericalOrder s e).1, some (numericalOrder s e).2)) =
      .ok (some (numericalOrder nSteps err).1, some (numericalOrder nSteps err).2) := by
    rintro N rfl s e hs he
    have hs' : s = nSteps := by rw [hs]; funext i; exact npBroadcast_ofFn nSteps i
    have he' : e = err := by rw [he]; funext i; exact npBroadcast_ofFn err i
    rw [hs', he', if_neg (sX_pos (orderX nSteps) (orderX_ne hpos ⟨i0, j0, h0⟩)).ne']
  have := key _ hN _ _ rfl rfl
  convert this using 2

/-- C64, finding: a single error for several step numbers is accepted, with order `0` and residual `0`. -/
theorem C64_single_error_fails {n : ℕ} (nSteps : Fin n → ℝ) (e : ℝ) (hpos : ∀ i, 0 < nSteps i) (he : 0 < e)
    (hdiff : ∃ i j, nSteps i ≠ nSteps j) : numericalOrderNp (List.ofFn nSteps) [e] = .ok (some 0, some 0) := by
  obtain ⟨i0, j0, h0⟩ := hdiff
  have hn0 : n ≠ 0 := i0.pos.ne'
  have hn1 : n ≠ 1 := fun h => h0 (by congr 1; apply Fin.ext; omega)
  have hN : (if (List.ofFn nSteps).length = 1 then [e].length else (List.ofFn nSteps).length) = n := by
    simp [hn1]
  unfold numericalOrderNp
  rw [if_neg (by simp), if_neg (by simp), if_neg (by
    rintro (h | h | ⟨s, hs, h⟩ | ⟨s, hs, h⟩)
    · have := congrArg List.length h; simp at this; exact hn0 this
    · simp at h
    · obtain ⟨i, rfl⟩ := List.mem_ofFn.1 hs; exact absurd (hpos i) (not_lt.2 h)
    · simp at hs; subst hs; exact absurd he (not_lt.2 h))]
  have hpl : (∃ C > 0, ∀ i, (fun _ : Fin n => e) i = C * nSteps i ^ (-(0:ℝ))) := ⟨e, he, fun i => by simp⟩
  obtain ⟨hp1, hp2⟩ := (C64_power_law nSteps (fun _ => e) hpos (fun _ => he) ⟨i0, j0, h0⟩ 0).1 hpl
  have key : ∀ N, N = n → ∀ (s e' : Fin N → ℝ), (s = fun i : Fin N => npBroadcast (List.ofFn nSteps) i) →
      (e' = fun i : Fin N => npBroadcast [e] i) →
      (if ∑ i, (orderX s i - npMean (orderX s)) ^ 2 = 0 then (.ok (none, none) : PyResult (Option ℝ × Option ℝ))
        else .ok (some (numericalOrder s e').1, some (numericalOrder s e').2)) = .ok (some 0, some 0) := by
    rintro N rfl s e' hs he'
    have hs' : s = nSteps := by rw [hs]; funext i; exact npBroadcast_ofFn nSteps i
    have he'' : e' = fun _ => e := by rw [he']; funext i; simp [npBroadcast]
    rw [hs', he'', if_neg (sX_pos (orderX nSteps) (orderX_ne hpos ⟨i0, j0, h0⟩)).ne', hp1, hp2]
  have := key _ hN _ _ rfl rfl
  convert this using 2

/-- Instance: step numbers 1, 2 and 4. -/
example : numericalOrderNp [1, 2, 4] [3] = .ok (some 0, some 0) ∧
    numericalOrderNp [1, 2, 4] [1, 2] = .error .valueError := by
  constructor
  · have := C64_single_error_fails ![1, 2, 4] 3 (fun i => by fin_cases i <;> norm_num) (by norm_num) ⟨0, 1, by norm_num⟩
    simpa [List.ofFn_succ] using this
  · exact ((C64_inputs [1, 2, 4] [1, 2]).1 .valueError).2 ⟨rfl, by simp, by simp, by simp⟩

end QMat
