import Verif.Props.TimeStep
import Verif.Props.LagrangeDup

/-!
# C54: the second-order explicit `QDelta` (`SOE`, leap-frog)
-/

namespace QMat

open Matrix Polynomial LagrangeApproximation

variable {M : ℕ}

theorem soeAlpha_unique (g : TimeStepping M) (i : ℕ) (h1 : g.soeTimes i < g.soeTimes (i + 1))
    (h2 : g.soeTimes (i + 1) < g.soeTimes (i + 2)) :
    ∃ a, g.soeAlpha i = .ok a ∧ a 2 ≠ 0 ∧ ∀ p : ℝ[X], p.degree < 3 →
      a 0 * p.eval (g.soeTimes i) + a 1 * p.eval (g.soeTimes (i + 1)) +
        a 2 * p.eval (g.soeTimes (i + 2)) = (derivative p).eval (g.soeTimes (i + 1)) := by
  obtain ⟨L, hL⟩ := C01_constructor_total (n := 3) (by norm_num)
    (fun j : Fin 3 => g.soeTimes (i + j)) "AUTO" false "MAX" "USE_LEFT"
    ⟨by simp, by simp, by simp, by simp⟩
  have hinc : StrictMono (fun j : Fin 3 => g.soeTimes (i + j)) := by
    refine Fin.strictMono_iff_lt_succ.mpr fun j => ?_
    fin_cases j
    · simpa using h1
    · simpa using h2
  obtain ⟨h, D1, D2, e1, -, -, ex, -⟩ := C07_derivative_exact _ hinc _ _ _ _ _ (by simp) L hL
  have hp : ∀ p : ℝ[X], p.degree < 3 →
      D1 ⟨1, by omega⟩ 0 * p.eval (g.soeTimes i) + D1 ⟨1, by omega⟩ 1 * p.eval (g.soeTimes (i + 1)) +
        D1 ⟨1, by omega⟩ 2 * p.eval (g.soeTimes (i + 2)) =
          (derivative p).eval (g.soeTimes (i + 1)) := by
    intro p hp
    have := (ex p (by exact_mod_cast hp) ⟨1, by omega⟩).1
    simpa [Matrix.mulVec, dotProduct, Fin.sum_univ_three, Spec.vals, add_assoc] using this
  refine ⟨D1 ⟨1, by omega⟩, ?_, ?_, hp⟩
  · unfold TimeStepping.soeAlpha
    rw [hL]
    simp only [bind, Except.bind]
    rw [e1]
    dsimp only
    rw [dif_pos (by omega)]
    rfl
  · intro h0
    have := hp ((X - C (g.soeTimes i)) * (X - C (g.soeTimes (i + 1)))) (by
      rw [degree_mul, degree_X_sub_C, degree_X_sub_C]; norm_num)
    simp [h0, derivative_mul] at this
    linarith

theorem soeAlpha_dup (g : TimeStepping M) (i : ℕ) (h1 : g.soeTimes i = g.soeTimes (i + 1))
    (h2 : g.soeTimes (i + 1) < g.soeTimes (i + 2)) :
    ∃ a, g.soeAlpha i = .ok a ∧ a 0 = -1 / (g.soeTimes (i + 2) - g.soeTimes (i + 1)) ∧ a 1 = 0 ∧
      a 2 = 1 / (g.soeTimes (i + 2) - g.soeTimes (i + 1)) := by
  obtain ⟨L, hL⟩ := C01_constructor_total (n := 3) (by norm_num)
    (fun j : Fin 3 => g.soeTimes (i + j)) "AUTO" false "MAX" "USE_LEFT"
    ⟨by simp, by simp, by simp, by simp⟩
  have hdup : ¬ Function.Injective (fun j : Fin 3 => g.soeTimes (i + j)) := by
    intro h
    have : (0 : Fin 3) = 1 := h (by simpa using h1)
    simp at this
  obtain ⟨hS, -, hWF⟩ := new_spec hL
  have hWF := hWF (Or.inr hdup) (by simp)
  have hq : StrictMono ![g.soeTimes (i + 1), g.soeTimes (i + 2)] := by
    refine Fin.strictMono_iff_lt_succ.mpr fun j => ?_
    fin_cases j
    simpa using h2
  have hr : Set.range ![g.soeTimes (i + 1), g.soeTimes (i + 2)] =
      Set.range (fun j : Fin 3 => g.soeTimes (i + j)) := by
    ext x
    simp [Fin.exists_fin_succ, h1, or_comm, eq_comm]
  obtain ⟨h, hqu, hcol⟩ := dup_columns hdup hq hr hS
  have hD : ∀ p : ℝ[X], p.degree < 2 → ∀ v : Fin 2,
      L.derivativeMatrix1U (Fin.cast h v) (Fin.cast h 0) * p.eval (g.soeTimes (i + 1)) +
      L.derivativeMatrix1U (Fin.cast h v) (Fin.cast h 1) * p.eval (g.soeTimes (i + 2)) =
        (derivative p).eval (![g.soeTimes (i + 1), g.soeTimes (i + 2)] v) := by
    intro p hp v
    have e := derivative1_exact hWF p (by rw [← h]; exact_mod_cast hp) (Fin.cast h v)
    rw [← hqu, ← Equiv.sum_comp (finCongr h), Fin.sum_univ_two] at e
    simp only [finCongr_apply, ← hqu] at e
    simpa using e
  have c1 := hD 1 (by rw [degree_one]; norm_num) 1
  have c2 := hD X (by rw [degree_X]; norm_num) 1
  simp only [eval_one, mul_one, derivative_one, eval_zero] at c1
  simp only [eval_X, derivative_X, eval_one] at c2
  have hne : g.soeTimes (i + 2) - g.soeTimes (i + 1) ≠ 0 := by linarith
  refine ⟨L.handleDuplicates L.derivativeMatrix1U (Fin.cast h 1), ?_, ?_, ?_, ?_⟩
  · unfold TimeStepping.soeAlpha
    rw [hL]
    change (if h : 1 < L.nUniquePoints then _ else _) = _
    rw [dif_pos (by omega)]
    rfl
  · rw [((hcol L.derivativeMatrix1U (Fin.cast h 1) 0 0 (by simpa using h1)).1 rfl).2 (by simp),
      eq_div_iff hne]
    linear_combination (-1 : ℝ) * c2 + g.soeTimes (i + 2) * c1
  · exact ((hcol L.derivativeMatrix1U (Fin.cast h 1) 1 0 (by simp)).1 rfl).1
      ⟨0, by decide, by simpa using h1⟩
  · rw [((hcol L.derivativeMatrix1U (Fin.cast h 1) 2 1 (by simp)).1 rfl).2 ?_, eq_div_iff hne]
    · linear_combination c2 - g.soeTimes (i + 1) * c1
    · rintro ⟨j, hj, e⟩
      have : g.soeTimes (i + j) = g.soeTimes (i + 2) := by simpa using e
      fin_cases j
      · simp at this; linarith
      · simp at this; linarith
      · simp at hj

/-- The recurrence the loops of `SOE.computeQDelta` implement. -/
structure SoeRows (a : ℕ → Fin 3 → ℝ) (n : ℕ) (QD : ℕ → ℕ → ℝ) : Prop where
  zero : ∀ m j, m = 0 ∨ n < m → QD m j = 0
  upper : ∀ m j, m ≤ j → QD m j = 0
  last : ∀ m, m + 1 ≤ n → QD (m + 1) m = 1 / a m 2
  rest : ∀ m j, m + 2 ≤ n → j ≤ m →
    QD (m + 2) j = -(a (m + 1) 1) / a (m + 1) 2 * QD (m + 1) j - a (m + 1) 0 / a (m + 1) 2 * QD m j

theorem soeRow_apply (a : Fin 3 → ℝ) (m : ℕ) (QD : ℕ → ℕ → ℝ) (r j : ℕ) :
    TimeStepping.soeRow a (m + 1) QD r j =
      if r = m + 1 then
        if j < m then -(a 1) / a 2 * QD m j - a 0 / a 2 * QD (m - 1) j
        else if j = m then 1 / a 2 else QD (m + 1) j
      else QD r j := by
  unfold TimeStepping.soeRow
  simp only [Nat.add_sub_cancel]
  have key : ∀ k, k ≤ m → ∀ r j, (List.range k).foldl
      (fun (QD : ℕ → ℕ → ℝ) j => Function.update QD (m + 1) (Function.update (QD (m + 1)) j
        (if m + 1 > 1 then -(a 1) / a 2 * QD m j - a 0 / a 2 * QD (m + 1 - 2) j
          else -(a 1) / a 2 * QD m j)))
      (Function.update QD (m + 1) (Function.update (QD (m + 1)) m (1 / a 2))) r j =
      if r = m + 1 then
        if j < k then -(a 1) / a 2 * QD m j - a 0 / a 2 * QD (m - 1) j
        else if j = m then 1 / a 2 else QD (m + 1) j
      else QD r j := by
    intro k
    induction k with
    | zero =>
      intro _ r j
      simp only [List.range_zero, List.foldl_nil, not_lt_zero, if_false]
      by_cases hr : r = m + 1
      · subst hr
        simp only [Function.update_self, if_true]
        by_cases hj : j = m <;> simp [hj]
      · simp [hr]
    | succ k ih =>
      intro hk r j
      rw [List.range_succ, List.foldl_append, List.foldl_cons, List.foldl_nil]
      have ih := ih (by omega)
      by_cases hr : r = m + 1
      · subst hr
        simp only [Function.update_self, if_true]
        by_cases hj : j = k
        · subst hj
          rw [Function.update_self, if_pos (by omega), ih, ih, if_neg (by omega), if_neg (by omega),
            if_pos (by omega)]
          rfl
        · rw [Function.update_of_ne hj, ih, if_pos rfl]
          have : j < k ↔ j < k + 1 := by omega
          simp only [this]
      · rw [Function.update_of_ne hr, ih, if_neg hr, if_neg hr]
  exact key m le_rfl r j

theorem soeRows_foldl (a : ℕ → Fin 3 → ℝ) (n : ℕ) :
    SoeRows a n ((List.range' 1 n).foldl (fun QD m => TimeStepping.soeRow (a (m - 1)) m QD)
      (fun _ _ => 0)) := by
  induction n with
  | zero => exact ⟨fun _ _ _ => rfl, fun _ _ _ => rfl, fun _ h => by omega, fun _ _ h => by omega⟩
  | succ n ih =>
    rw [List.range'_1_concat, List.foldl_append, List.foldl_cons, List.foldl_nil]
    generalize (List.range' 1 n).foldl (fun QD m => TimeStepping.soeRow (a (m - 1)) m QD)
      (fun _ _ => 0) = QD at ih ⊢
    rw [Nat.add_comm 1 n]
    simp only [Nat.add_sub_cancel]
    refine ⟨fun m j h => ?_, fun m j h => ?_, fun m h => ?_, fun m j h hj => ?_⟩
    · rw [soeRow_apply, if_neg (by omega)]
      exact ih.zero m j (by omega)
    · rw [soeRow_apply]
      split_ifs with h1 h2 h3
      · omega
      · omega
      · exact ih.zero _ _ (by omega)
      · exact ih.upper m j h
    · rw [soeRow_apply]
      by_cases hm : m = n
      · subst hm; simp
      · rw [if_neg (by omega)]
        exact ih.last m (by omega)
    · rw [soeRow_apply, soeRow_apply, soeRow_apply]
      rw [if_neg (show ¬ m + 1 = n + 1 by omega), if_neg (show ¬ m = n + 1 by omega)]
      by_cases hm : m + 2 = n + 1
      · have : n = m + 1 := by omega
        subst this
        rw [if_pos rfl, if_pos (by omega)]
        rfl
      · rw [if_neg hm]
        exact ih.rest m j (by omega) hj

theorem mapM_range_ok {α : Type} {f : ℕ → PyResult α} {n : ℕ} {a : ℕ → α}
    (h : ∀ i < n, f i = .ok (a i)) : (List.range n).mapM f = .ok ((List.range n).map a) := by
  induction n with
  | zero => rfl
  | succ n ih =>
    rw [List.range_succ, List.mapM_append, ih fun i hi => h i (by omega)]
    simp only [List.mapM_cons, List.mapM_nil, h n (by omega), bind, Except.bind, pure, Except.pure,
      List.map_append, List.map_cons, List.map_nil]

theorem computeSOE_rows (g : TimeStepping M) (a : ℕ → Fin 3 → ℝ)
    (ha : ∀ i < M - 1, g.soeAlpha i = .ok (a i)) :
    ∃ R : ℕ → ℕ → ℝ, g.computeSOE = .ok (Matrix.of fun r c => R r c) ∧ SoeRows a (M - 1) R := by
  refine ⟨(List.range' 1 (M - 1)).foldl (fun QD m => TimeStepping.soeRow (a (m - 1)) m QD)
      (fun _ _ => 0), ?_, soeRows_foldl a (M - 1)⟩
  unfold TimeStepping.computeSOE
  rw [mapM_range_ok ha]
  simp only [bind, Except.bind, pure, Except.pure]
  congr 3
  funext r c
  have : ∀ (l : List ℕ) (QD : ℕ → ℕ → ℝ), (∀ m ∈ l, 1 ≤ m ∧ m - 1 < M - 1) →
      l.foldl (fun QD m => TimeStepping.soeRow (((List.range (M - 1)).map a).getD (m - 1) 0) m QD) QD =
      l.foldl (fun QD m => TimeStepping.soeRow (a (m - 1)) m QD) QD := by
    intro l
    induction l with
    | nil => intros; rfl
    | cons m l ih =>
      intro QD h
      rw [List.foldl_cons, List.foldl_cons, ih _ fun m' hm' => h m' (by simp [hm'])]
      congr 2
      have := h m (by simp)
      simp [List.getD_eq_getElem?_getD, this.2]
  rw [this]
  intro m hm
  rw [List.mem_range'_1] at hm
  omega

theorem soe_mulVec {a : ℕ → Fin 3 → ℝ} {R : ℕ → ℕ → ℝ} (hR : SoeRows a (M - 1) R) (f : Fin M → ℝ) :
    (∀ (h : 0 < M), (Matrix.of (fun r c : Fin M => R r c) *ᵥ f) ⟨0, h⟩ = 0) ∧
    (∀ (h : 1 < M), (Matrix.of (fun r c : Fin M => R r c) *ᵥ f) ⟨1, h⟩ =
      1 / a 0 2 * f ⟨0, by omega⟩) ∧
    (∀ (m : ℕ) (h : m + 2 < M), (Matrix.of (fun r c : Fin M => R r c) *ᵥ f) ⟨m + 2, h⟩ =
      1 / a (m + 1) 2 * f ⟨m + 1, by omega⟩ -
        a (m + 1) 1 / a (m + 1) 2 * (Matrix.of (fun r c : Fin M => R r c) *ᵥ f) ⟨m + 1, by omega⟩ -
        a (m + 1) 0 / a (m + 1) 2 * (Matrix.of (fun r c : Fin M => R r c) *ᵥ f) ⟨m, by omega⟩) := by
  simp only [Matrix.mulVec, dotProduct, Matrix.of_apply]
  refine ⟨fun h => ?_, fun h => ?_, fun m h => ?_⟩
  · exact Finset.sum_eq_zero fun j _ => by rw [hR.zero 0 _ (Or.inl rfl), zero_mul]
  · rw [Finset.sum_eq_single ⟨0, by omega⟩]
    · rw [hR.last 0 (by omega)]
    · intro j _ hj
      have : (j : ℕ) ≠ 0 := fun e => hj (Fin.ext e)
      rw [hR.upper 1 j (by omega), zero_mul]
    · simp
  · rw [Finset.mul_sum, Finset.mul_sum]
    rw [show 1 / a (m + 1) 2 * f ⟨m + 1, by omega⟩ =
      ∑ j : Fin M, if (j : ℕ) = m + 1 then 1 / a (m + 1) 2 * f j else 0 from ?_]
    · rw [← Finset.sum_sub_distrib, ← Finset.sum_sub_distrib]
      refine Finset.sum_congr rfl fun j _ => ?_
      rcases Nat.lt_trichotomy (j : ℕ) (m + 1) with hj | hj | hj
      · rw [hR.rest m j (by omega) (by omega), if_neg (by omega)]
        ring
      · rw [if_pos hj, hj, hR.last (m + 1) (by omega), hR.upper (m + 1) _ le_rfl,
          hR.upper m _ (by omega)]
        ring
      · rw [if_neg (by omega), hR.upper (m + 2) j (by omega), hR.upper (m + 1) j (by omega),
          hR.upper m j (by omega)]
        ring
    · rw [Finset.sum_eq_single ⟨m + 1, by omega⟩]
      · simp
      · intro j _ hj
        rw [if_neg fun e => hj (Fin.ext e)]
      · simp

theorem soeTimes_succ {nodes : Fin M → ℝ} {tLeft : ℝ} {g : TimeStepping M}
    (hg : TimeStepping.new nodes tLeft = .ok g) (i : ℕ) (hi : i < M) :
    g.soeTimes (i + 1) = nodes ⟨i, hi⟩ := by
  simp [TimeStepping.soeTimes, atPos, hi, (g.new_ok hg).2.1]

/-- The coefficients `alpha` of the code, and what characterizes them. -/
theorem soe_alpha {nodes : Fin M → ℝ} (hinc : StrictMono nodes)
    (h0 : ∀ i, 0 ≤ nodes i) {tLeft : ℝ} {g : TimeStepping M}
    (hg : TimeStepping.new nodes tLeft = .ok g) :
    ∃ a : ℕ → Fin 3 → ℝ, (∀ i < M - 1, g.soeAlpha i = .ok (a i)) ∧
      (∀ (h : 1 < M), 0 < nodes ⟨0, by omega⟩ → a 0 2 ≠ 0 ∧ ∀ p : ℝ[X], p.degree < 3 →
        a 0 0 * p.eval 0 + a 0 1 * p.eval (nodes ⟨0, by omega⟩) +
          a 0 2 * p.eval (nodes ⟨1, h⟩) = (derivative p).eval (nodes ⟨0, by omega⟩)) ∧
      (∀ (h : 1 < M), nodes ⟨0, by omega⟩ = 0 → a 0 2 = 1 / nodes ⟨1, h⟩) ∧
      ∀ (m : ℕ) (h : m + 2 < M), a (m + 1) 2 ≠ 0 ∧ ∀ p : ℝ[X], p.degree < 3 →
        a (m + 1) 0 * p.eval (nodes ⟨m, by omega⟩) +
          a (m + 1) 1 * p.eval (nodes ⟨m + 1, by omega⟩) +
          a (m + 1) 2 * p.eval (nodes ⟨m + 2, h⟩) =
            (derivative p).eval (nodes ⟨m + 1, by omega⟩) := by
  have hlt : ∀ i (h : i + 1 < M), g.soeTimes (i + 1) < g.soeTimes (i + 2) := by
    intro i h
    rw [soeTimes_succ hg i (by omega), soeTimes_succ hg (i + 1) h]
    exact hinc (by simp)
  have ex : ∀ i < M - 1, ∃ a, g.soeAlpha i = .ok a := by
    intro i hi
    cases i with
    | zero =>
      have e := soeTimes_succ hg 0 (by omega)
      rcases (h0 ⟨0, by omega⟩).lt_or_eq with h | h
      · obtain ⟨a, ha, -⟩ := soeAlpha_unique g 0 (by rw [e]; exact h) (hlt 0 (by omega))
        exact ⟨a, ha⟩
      · obtain ⟨a, ha, -⟩ := soeAlpha_dup g 0 (by rw [e, ← h]; rfl) (hlt 0 (by omega))
        exact ⟨a, ha⟩
    | succ i =>
      obtain ⟨a, ha, -⟩ := soeAlpha_unique g (i + 1) (hlt i (by omega)) (hlt (i + 1) (by omega))
      exact ⟨a, ha⟩
  choose! a ha using ex
  refine ⟨a, ha, fun h hpos => ?_, fun h hz => ?_, fun m h => ?_⟩
  · have e := soeTimes_succ hg 0 (by omega)
    obtain ⟨b, hb, h2, hp⟩ := soeAlpha_unique g 0 (by rw [e]; exact hpos) (hlt 0 h)
    rw [ha 0 (by omega)] at hb
    cases hb
    refine ⟨h2, fun p hp' => ?_⟩
    have := hp p hp'
    rwa [zero_add, zero_add, soeTimes_succ hg 0 (by omega), soeTimes_succ hg 1 h,
      show g.soeTimes 0 = 0 from rfl] at this
  · have e := soeTimes_succ hg 0 (by omega)
    obtain ⟨b, hb, -, -, h2⟩ := soeAlpha_dup g 0 (by rw [e, hz]; rfl) (hlt 0 h)
    rw [ha 0 (by omega)] at hb
    cases hb
    rw [zero_add, zero_add, soeTimes_succ hg 0 (by omega), soeTimes_succ hg 1 h, hz, sub_zero] at h2
    exact h2
  · obtain ⟨b, hb, h2, hp⟩ := soeAlpha_unique g (m + 1) (hlt m (by omega)) (hlt (m + 1) (by omega))
    rw [ha (m + 1) (by omega)] at hb
    cases hb
    refine ⟨h2, fun p hp' => ?_⟩
    have := hp p hp'
    rwa [soeTimes_succ hg m (by omega), soeTimes_succ hg (m + 1) (by omega),
      soeTimes_succ hg (m + 2) h] at this

/-- C54: for increasing nodes from `0` on, `SOE` returns a strictly lower triangular matrix, and
`U = QDelta f` is leap-frog: `U_0 = 0`, and the parabola through three consecutive points has slope
`f` at the middle one.  If the first node is not `0`, the first parabola goes through `(0, 0)`; if it is
`0`, the first step is forward Euler. `tLeft` plays no role. -/
theorem C54_leapfrog (nodes : Fin M → ℝ) (hinc : StrictMono nodes) (h0 : ∀ i, 0 ≤ nodes i)
    (tLeft : ℝ) (g : TimeStepping M) (hg : TimeStepping.new nodes tLeft = .ok g) :
    ∃ QD : Matrix (Fin M) (Fin M) ℝ, g.computeSOE = .ok QD ∧ (∀ r c, r ≤ c → QD r c = 0) ∧
      ∀ f : Fin M → ℝ,
        (∀ h : 0 < M, (QD *ᵥ f) ⟨0, h⟩ = 0) ∧
        (∀ h : 1 < M, nodes ⟨0, by omega⟩ = 0 →
          (QD *ᵥ f) ⟨1, h⟩ = nodes ⟨1, h⟩ * f ⟨0, by omega⟩) ∧
        (∀ h : 1 < M, 0 < nodes ⟨0, by omega⟩ → ∀ p : ℝ[X], p.degree < 3 →
          p.eval 0 = 0 → p.eval (nodes ⟨0, by omega⟩) = (QD *ᵥ f) ⟨0, by omega⟩ →
          p.eval (nodes ⟨1, h⟩) = (QD *ᵥ f) ⟨1, h⟩ →
          (derivative p).eval (nodes ⟨0, by omega⟩) = f ⟨0, by omega⟩) ∧
        (∀ (m : ℕ) (h : m + 2 < M), ∀ p : ℝ[X], p.degree < 3 →
          p.eval (nodes ⟨m, by omega⟩) = (QD *ᵥ f) ⟨m, by omega⟩ →
          p.eval (nodes ⟨m + 1, by omega⟩) = (QD *ᵥ f) ⟨m + 1, by omega⟩ →
          p.eval (nodes ⟨m + 2, h⟩) = (QD *ᵥ f) ⟨m + 2, h⟩ →
          (derivative p).eval (nodes ⟨m + 1, by omega⟩) = f ⟨m + 1, by omega⟩) := by
  obtain ⟨a, ha, a1, a2, a3⟩ := soe_alpha hinc h0 hg
  obtain ⟨R, hQ, hR⟩ := computeSOE_rows g a ha
  refine ⟨_, hQ, fun r c hrc => hR.upper r c hrc, fun f => ?_⟩
  obtain ⟨m0, m1, m2⟩ := soe_mulVec hR f
  refine ⟨m0, fun h hz => ?_, fun h hpos p hp e1 e2 e3 => ?_, fun m h p hp e1 e2 e3 => ?_⟩
  · rw [m1 h, a2 h hz, one_div_one_div]
  · have := a1 h hpos
    rw [← this.2 p hp, e1, e2, e3, m0, m1 h]
    field_simp [this.1]
    ring
  · have := a3 m h
    rw [← this.2 p hp, e1, e2, e3, m2 m h]
    field_simp [this.1]
    ring

/-- Instance: three nodes, the first is zero. -/
example : ∃ (g : TimeStepping 3) (QD : Matrix (Fin 3) (Fin 3) ℝ),
    TimeStepping.new ![(0:ℝ), 1/2, 1] 0 = .ok g ∧ g.computeSOE = .ok QD ∧
    ∀ f : Fin 3 → ℝ, (QD *ᵥ f) 1 = 1 / 2 * f 0 := by
  obtain ⟨QD, h, -, hf⟩ := C54_leapfrog ![(0:ℝ), 1/2, 1] strictMono_ex
    (fun i => by fin_cases i <;> norm_num) 0 _ rfl
  exact ⟨_, QD, rfl, h, fun f => by simpa using (hf f).2.1 (by norm_num) rfl⟩

/-- C54: when the first node is `0`, the rows add up to the nodes (and `dTau = -tLeft`, so `0` by
default): the scheme is consistent. -/
theorem C54_row_sums (nodes : Fin M → ℝ) (hinc : StrictMono nodes) (hM : 0 < M)
    (h0 : nodes ⟨0, hM⟩ = 0) (tLeft : ℝ) (g : TimeStepping M)
    (hg : TimeStepping.new nodes tLeft = .ok g) (QD : Matrix (Fin M) (Fin M) ℝ)
    (hQ : g.computeSOE = .ok QD) (m : Fin M) :
    ∑ j, QD m j = nodes m ∧ g.dTauFE m = -tLeft := by
  have hn : ∀ i, 0 ≤ nodes i := fun i => by
    rw [← h0]; exact hinc.monotone (Fin.le_def.mpr (Nat.zero_le _))
  constructor
  · obtain ⟨a, ha, a1, a2, a3⟩ := soe_alpha hinc hn hg
    obtain ⟨R, hQ', hR⟩ := computeSOE_rows g a ha
    rw [hQ] at hQ'
    cases hQ'
    obtain ⟨m0, m1, m2⟩ := soe_mulVec hR (1 : Fin M → ℝ)
    have key : ∀ k, (∀ h : k < M, (Matrix.of (fun r c : Fin M => R r c) *ᵥ 1) ⟨k, h⟩ =
        nodes ⟨k, h⟩) ∧ (∀ h : k + 1 < M, (Matrix.of (fun r c : Fin M => R r c) *ᵥ 1) ⟨k + 1, h⟩ =
        nodes ⟨k + 1, h⟩) := by
      intro k
      induction k with
      | zero =>
        refine ⟨fun h => (m0 h).trans h0.symm, fun h => ?_⟩
        rw [m1 h, a2 h h0, one_div_one_div]
        simp
      | succ k ih =>
        refine ⟨ih.2, fun h => ?_⟩
        rw [m2 k h, ih.1 (by omega), ih.2 (by omega)]
        have e := (a3 k h).2 X (by rw [degree_X]; norm_num)
        simp only [eval_X, derivative_X, eval_one] at e
        have hne := (a3 k h).1
        simp only [Pi.one_apply]
        field_simp
        linear_combination -e
    have := (key m).1 m.isLt
    simpa [Matrix.mulVec, dotProduct] using this
  · unfold TimeStepping.dTauFE
    rw [atPos_zero_eq hg m, h0]
    ring

/-- Instance: the last row of three nodes sums to one. -/
example : ∃ (g : TimeStepping 3) (QD : Matrix (Fin 3) (Fin 3) ℝ),
    TimeStepping.new ![(0:ℝ), 1/2, 1] 0 = .ok g ∧ g.computeSOE = .ok QD ∧ ∑ j, QD 2 j = 1 := by
  obtain ⟨QD, h, -⟩ := C54_leapfrog ![(0:ℝ), 1/2, 1] strictMono_ex
    (fun i => by fin_cases i <;> norm_num) 0 _ rfl
  exact ⟨_, QD, rfl, h, by simpa using (C54_row_sums ![(0:ℝ), 1/2, 1] strictMono_ex (by norm_num) rfl 0 _ rfl QD h 2).1⟩

/-- C54, finding: when the first node is not `0`, the row sums and `dTau` do not add up to the
nodes: with nodes `1/2, 1` the second node gets `3/2`. -/
theorem C54_consistency_fails : ∃ (g : TimeStepping 2) (QD : Matrix (Fin 2) (Fin 2) ℝ),
    TimeStepping.new ![1 / 2, 1] 0 = .ok g ∧ g.computeSOE = .ok QD ∧
      (∑ j, QD 1 j) + g.dTauFE 1 = 3 / 2 := by
  have hinc : StrictMono ![(1 / 2 : ℝ), 1] := by
    refine Fin.strictMono_iff_lt_succ.mpr fun j => ?_
    fin_cases j
    norm_num
  have hn : ∀ i, (0:ℝ) ≤ ![(1 / 2 : ℝ), 1] i := by intro i; fin_cases i <;> norm_num
  obtain ⟨g, hg⟩ := (C38_constructor ![(1 / 2 : ℝ), 1] 0).1.mpr (by norm_num)
  obtain ⟨QD, hQ, hu, hf⟩ := C54_leapfrog _ hinc hn 0 _ hg
  refine ⟨g, QD, hg, hQ, ?_⟩
  obtain ⟨u0, -, u1, -⟩ := hf 1
  have e := u1 (by norm_num) (by norm_num)
    (C (2 * (QD *ᵥ 1) 1) * (X * (X - C (1 / 2)))) (by
      refine lt_of_le_of_lt (degree_mul_le _ _) ?_
      rw [degree_mul, degree_X, degree_X_sub_C]
      refine lt_of_le_of_lt (add_le_add_left degree_C_le _) ?_
      norm_num) (by simp)
    (by rw [u0]; simp) (by simp; ring)
  simp [derivative_mul] at e
  have e2 : (QD *ᵥ 1) 1 = 1 := by linarith
  have : ∑ j, QD 1 j = 1 := by simpa [Matrix.mulVec, dotProduct] using e2
  rw [this, TimeStepping.dTauFE, atPos_zero_eq hg 1]
  norm_num

/-- The hypotheses of C54 can be met, with three nodes. -/
example : ∃ g : TimeStepping 3, TimeStepping.new ![0, 1 / 2, 1] 0 = .ok g ∧
    StrictMono ![(0 : ℝ), 1 / 2, 1] ∧ ∀ i, (0 : ℝ) ≤ ![0, 1 / 2, 1] i := by
  obtain ⟨g, hg⟩ := (C38_constructor ![(0 : ℝ), 1 / 2, 1] 0).1.mpr (by norm_num)
  refine ⟨g, hg, Fin.strictMono_iff_lt_succ.mpr fun j => ?_, fun i => ?_⟩
  · fin_cases j <;> norm_num [Fin.succ]
  · fin_cases i <;> norm_num

end QMat
