import Verif.Props.Dahlquist
import Verif.Props.SDC

/-!
# C30, C56: `errorDahlquist` and `errorDahlquistSDC` are the largest distance to the exact solution
-/

namespace QMat

theorem npNormInf_attained {l : List ℂ} (hl : l ≠ []) : ∃ z ∈ l, npNormInf l = ‖z‖ := by
  induction l with
  | nil => exact absurd rfl hl
  | cons y l ih =>
    have e : npNormInf (y :: l) = max ‖y‖ (npNormInf l) := rfl
    rw [e]
    by_cases h : l = []
    · refine ⟨y, by simp, ?_⟩
      rw [h]
      exact max_eq_left (norm_nonneg y)
    · obtain ⟨z, hz, hm⟩ := ih h
      rw [hm]
      rcases max_cases ‖y‖ ‖z‖ with ⟨h, -⟩ | ⟨h, -⟩
      · exact ⟨y, by simp, h⟩
      · exact ⟨z, by simp [hz], h⟩

theorem normInf_values (u : List ℂ) (f : ℕ → ℂ) (n : ℕ) (hlen : u.length = n + 1) :
    (∀ k v, u[k]? = some v → ‖v - f k‖ ≤ npNormInf (u.mapIdx fun i u => u - f i)) ∧
    ∃ k v, u[k]? = some v ∧ npNormInf (u.mapIdx fun i u => u - f i) = ‖v - f k‖ := by
  constructor
  · intro k v hv
    obtain ⟨hk, hv⟩ := List.getElem?_eq_some_iff.mp hv
    exact norm_le_npNormInf (List.mem_mapIdx.mpr ⟨k, hk, by rw [hv]⟩)
  · obtain ⟨z, hz, he⟩ := npNormInf_attained (l := u.mapIdx fun i u => u - f i) (by
      intro h
      have := congrArg List.length h
      simp [hlen] at this)
    obtain ⟨k, hk, rfl⟩ := List.mem_mapIdx.mp hz
    exact ⟨k, u[k], List.getElem?_eq_getElem hk, he⟩

/-- C30: `errorDahlquist` of a given or computed solution is its largest distance to `u0 exp(lam t)` at the times
`k tEnd / nSteps`; it raises what `solveDahlquist` raises. -/
theorem C30_errorDahlquist {M : ℕ} (g : QGenerator M) (lam u0 : ℂ) (tEnd : ℝ) (n : ℕ) (emb : Bool)
    (uNum : Option (List ℂ)) :
    (∀ u : List ℂ, uNum = some u ∨ uNum = none ∧ g.solveDahlquist lam u0 tEnd n emb = .ok u → u.length = n + 1 →
      ∃ e, g.errorDahlquist lam u0 tEnd n uNum emb = .ok e ∧
        (∀ (k : ℕ) v, u[k]? = some v → ‖v - u0 * Complex.exp (lam * (k * (tEnd / n) : ℝ))‖ ≤ e) ∧
        ∃ (k : ℕ) (v : ℂ), u[k]? = some v ∧ e = ‖v - u0 * Complex.exp (lam * (k * (tEnd / n) : ℝ))‖) ∧
    (∀ err, uNum = none → g.solveDahlquist lam u0 tEnd n emb = .error err →
      g.errorDahlquist lam u0 tEnd n uNum emb = .error err) := by
  constructor
  · intro u hu hlen
    have := normInf_values u (fun i => u0 * Complex.exp (lam * (i * (tEnd / (n:ℤ)) : ℝ))) n hlen
    refine ⟨npNormInf (u.mapIdx fun i v => v - u0 * Complex.exp (lam * (i * (tEnd / (n:ℤ)) : ℝ))), ?_, ?_⟩
    · unfold QGenerator.errorDahlquist
      rcases hu with rfl | ⟨rfl, hs⟩
      · simp only [bind, Except.bind, pure, Except.pure]
        exact errorInf_ok hlen _
      · simp only [hs, bind, Except.bind, pure, Except.pure]
        exact errorInf_ok hlen _
    · simpa only [Int.cast_natCast] using this
  · rintro err rfl hs
    unfold QGenerator.errorDahlquist
    simp only [hs, bind, Except.bind]

/-- C56: `errorDahlquistSDC` is the largest distance of the given solution, or of the one that `solveDahlquistSDC`
returns, to `u0 exp(lam t)` at the times `k tEnd / nSteps`; it raises what `solveDahlquistSDC` raises. -/
theorem C56_errorDahlquistSDC {M : ℕ} (lam u0 : ℂ) (tEnd : ℝ) (n : ℕ) (nSweeps : ℤ) (Q : Matrix (Fin M) (Fin M) ℝ)
    (QD : SDCQDelta) (w : Option (Σ k, Fin k → ℝ)) (uNum : Option (List ℂ)) :
    (∀ u : List ℂ, uNum = some u ∨
        uNum = none ∧ (∃ out, solveDahlquistSDC lam u0 tEnd n nSweeps Q QD w = .ok out ∧ out.uNum = u) →
      u.length = n + 1 →
      ∃ e, errorDahlquistSDC lam u0 tEnd n nSweeps Q QD w uNum = .ok e ∧
        (∀ (k : ℕ) v, u[k]? = some v → ‖v - u0 * Complex.exp (lam * (k * (tEnd / n) : ℝ))‖ ≤ e) ∧
        ∃ (k : ℕ) (v : ℂ), u[k]? = some v ∧ e = ‖v - u0 * Complex.exp (lam * (k * (tEnd / n) : ℝ))‖) ∧
    (∀ err, uNum = none → solveDahlquistSDC lam u0 tEnd n nSweeps Q QD w = .error err →
      errorDahlquistSDC lam u0 tEnd n nSweeps Q QD w uNum = .error err) := by
  constructor
  · intro u hu hlen
    have := normInf_values u (fun i => u0 * Complex.exp (lam * (i * (tEnd / (n:ℤ)) : ℝ))) n hlen
    refine ⟨npNormInf (u.mapIdx fun i v => v - u0 * Complex.exp (lam * (i * (tEnd / (n:ℤ)) : ℝ))), ?_, ?_⟩
    · unfold errorDahlquistSDC
      rcases hu with rfl | ⟨rfl, out, hs, rfl⟩
      · simp only [bind, Except.bind, pure, Except.pure]
        exact errorInf_ok hlen _
      · simp only [hs, bind, Except.bind, pure, Except.pure]
        exact errorInf_ok hlen _
    · simpa only [Int.cast_natCast] using this
  · rintro err rfl hs
    unfold errorDahlquistSDC
    simp only [hs, bind, Except.bind]

/-- The error of an array of another size. -/
theorem errorInf_sizes (u : List ℂ) (n : ℤ) (f : ℕ → ℂ) :
    ((∃ e, errorInf u n f = .ok e) ↔ 0 ≤ n ∧ u ≠ [] ∧ (u.length = n + 1 ∨ u.length = 1 ∨ n = 0)) ∧
    (∀ err, errorInf u n f = .error err → err = .valueError) ∧
    ∀ e, errorInf u n f = .ok e → (∀ k ≤ n.toNat, ∀ v, u[if u.length = 1 then 0 else k]? = some v → ‖v - f k‖ ≤ e) ∧
      (n = 0 → ∀ v ∈ u, ‖v - f 0‖ ≤ e) ∧
      ∃ v ∈ u, ∃ k ≤ n.toNat, e = ‖v - f k‖ := by
  by_cases h1 : n + 1 < 0
  · have : errorInf u n f = .error .valueError := by simp [errorInf, h1, bind, Except.bind, throw, throwThe, MonadExceptOf.throw]
    rw [this]
    refine ⟨⟨fun ⟨e, he⟩ => by simp at he, fun h => by omega⟩, fun err h => by simpa using h.symm, fun e he => by simp at he⟩
  obtain ⟨N, hN⟩ : ∃ N : ℕ, n + 1 = N := ⟨(n + 1).toNat, by omega⟩
  have hN' : (n + 1).toNat = N := by omega
  have hn' : n.toNat = N - 1 := by omega
  by_cases h2 : u.length = N
  · by_cases h0 : N = 0
    · have hu : u = [] := List.length_eq_zero_iff.1 (h2.trans h0)
      have : errorInf u n f = .error .valueError := by
        simp [errorInf, h1, hN', h0, hu, bind, Except.bind, pure, Except.pure, throw, throwThe, MonadExceptOf.throw]
      rw [this]
      refine ⟨⟨fun ⟨e, he⟩ => by simp at he, fun h => absurd hu h.2.1⟩, fun err h => by simpa using h.symm, fun e he => by simp at he⟩
    · obtain ⟨m, rfl⟩ : ∃ m, N = m + 1 := ⟨N - 1, by omega⟩
      obtain rfl : n = m := by omega
      rw [errorInf_ok h2]
      have hne : u ≠ [] := fun h => by rw [h] at h2; simp at h2
      refine ⟨⟨fun _ => ⟨by omega, hne, Or.inl (by omega)⟩, fun _ => ⟨_, rfl⟩⟩, fun err h => by simp at h, ?_⟩
      rintro e he
      obtain rfl : npNormInf _ = e := by simpa using he
      obtain ⟨hb, k, v, hv, ha⟩ := normInf_values u f m h2
      refine ⟨fun k' hk' v' hv' => ?_, fun hm v' hv' => ?_, v, List.mem_of_getElem? hv, k, ?_, ha⟩
      · split at hv'
        · next h => exact hb k' v' (by rw [show k' = 0 by simp at hk'; omega]; exact hv')
        · exact hb k' v' hv'
      · obtain ⟨i, hi, rfl⟩ := List.mem_iff_getElem.1 hv'
        have : i = 0 := by omega
        subst this
        exact hb 0 _ (List.getElem?_eq_getElem hi)
      · obtain ⟨hk, -⟩ := List.getElem?_eq_some_iff.1 hv
        simp; omega
  · by_cases h3 : u.length = 1
    · obtain ⟨w, rfl⟩ := List.length_eq_one_iff.1 h3
      by_cases h0 : N = 0
      · have : errorInf [w] n f = .error .valueError := by
          simp [errorInf, h1, hN', h0, bind, Except.bind, pure, Except.pure, throw, throwThe, MonadExceptOf.throw]
        rw [this]
        refine ⟨⟨fun ⟨e, he⟩ => by simp at he, fun h => by omega⟩, fun err h => by simpa using h.symm, fun e he => by simp at he⟩
      · have hr : ((List.range N).map fun i => w - f i) ≠ [] := by simpa using h0
        have : errorInf [w] n f = .ok (npNormInf ((List.range N).map fun i => w - f i)) := by
          have h2' : ¬ (1 = N) := by simpa using h2
          simp [errorInf, h1, hN', h2', h0, bind, Except.bind, pure, Except.pure]
        rw [this]
        refine ⟨⟨fun _ => ⟨by omega, by simp, Or.inr (Or.inl rfl)⟩, fun _ => ⟨_, rfl⟩⟩, fun err h => by simp at h, ?_⟩
        rintro e he
        obtain rfl : npNormInf _ = e := by simpa using he
        obtain ⟨z, hz, ha⟩ := npNormInf_attained hr
        obtain ⟨k, hk, rfl⟩ := List.mem_map.1 hz
        have hb : ∀ k < N, ‖w - f k‖ ≤ npNormInf ((List.range N).map fun i => w - f i) := fun k hk =>
          norm_le_npNormInf (List.mem_map.2 ⟨k, List.mem_range.2 hk, rfl⟩)
        refine ⟨fun k' hk' v' hv' => ?_, fun hm v' hv' => ?_, w, by simp, k, ?_, ha⟩
        · have : w = v' := by simpa using hv'
          subst this
          exact hb k' (by omega)
        · have : v' = w := by simpa using hv'
          subst this
          exact hb 0 (by omega)
        · have := List.mem_range.1 hk; omega
    · by_cases h4 : N = 1
      · obtain rfl : n = 0 := by omega
        by_cases h0 : u = []
        · have : errorInf u 0 f = .error .valueError := by
            simp [errorInf, h0, bind, Except.bind, pure, Except.pure, throw, throwThe, MonadExceptOf.throw]
          rw [this]
          refine ⟨⟨fun ⟨e, he⟩ => by simp at he, fun h => absurd h0 h.2.1⟩, fun err h => by simpa using h.symm, fun e he => by simp at he⟩
        · have hr : (u.map fun v => v - f 0) ≠ [] := by simpa using h0
          have : errorInf u 0 f = .ok (npNormInf (u.map fun v => v - f 0)) := by
            simp [errorInf, h3, h0, bind, Except.bind, pure, Except.pure]
          rw [this]
          refine ⟨⟨fun _ => ⟨le_rfl, h0, Or.inr (Or.inr rfl)⟩, fun _ => ⟨_, rfl⟩⟩, fun err h => by simp at h, ?_⟩
          rintro e he
          obtain rfl : npNormInf _ = e := by simpa using he
          obtain ⟨z, hz, ha⟩ := npNormInf_attained hr
          obtain ⟨v, hv, rfl⟩ := List.mem_map.1 hz
          have hb : ∀ v ∈ u, ‖v - f 0‖ ≤ npNormInf (u.map fun v => v - f 0) := fun v hv =>
            norm_le_npNormInf (List.mem_map.2 ⟨v, hv, rfl⟩)
          refine ⟨fun k' hk' v' hv' => ?_, fun _ => hb, v, hv, 0, le_rfl, ha⟩
          obtain rfl : k' = 0 := by simpa using hk'
          exact hb v' (List.mem_of_getElem? hv')
      · have : errorInf u n f = .error .valueError := by
          simp [errorInf, h1, hN', h2, h3, h4, bind, Except.bind, throw, throwThe, MonadExceptOf.throw]
        rw [this]
        refine ⟨⟨fun ⟨e, he⟩ => by simp at he, fun h => ?_⟩, fun err h => by simpa using h.symm, fun e he => by simp at he⟩
        obtain ⟨-, -, h | h | h⟩ := h
        · omega
        · exact absurd h h3
        · omega

/-- C30, C56 (given solutions of any size): the error of a given array is defined exactly if it has one entry for each of the
`nSteps + 1 ≥ 1` times, or only one entry, or there is only one time; otherwise `ValueError` is raised. A single entry is compared with
the solution at all the times. -/
theorem C30_given_sizes {M : ℕ} (g : QGenerator M) (lam u0 : ℂ) (tEnd : ℝ) (n : ℤ) (emb : Bool) (u : List ℂ)
    (nSweeps : ℤ) (Q : Matrix (Fin M) (Fin M) ℝ) (QD : SDCQDelta) (w : Option (Σ k, Fin k → ℝ)) :
    errorDahlquistSDC lam u0 tEnd n nSweeps Q QD w (some u) = g.errorDahlquist lam u0 tEnd n (some u) emb ∧
    ((∃ e, g.errorDahlquist lam u0 tEnd n (some u) emb = .ok e) ↔
      0 ≤ n ∧ u ≠ [] ∧ (u.length = n + 1 ∨ u.length = 1 ∨ n = 0)) ∧
    (∀ err, g.errorDahlquist lam u0 tEnd n (some u) emb = .error err → err = .valueError) ∧
    ∀ e, g.errorDahlquist lam u0 tEnd n (some u) emb = .ok e →
      (∀ k ≤ n.toNat, ∀ v, u[if u.length = 1 then 0 else k]? = some v →
        ‖v - u0 * Complex.exp (lam * (k * (tEnd / n) : ℝ))‖ ≤ e) ∧ (n = 0 → ∀ v ∈ u, ‖v - u0‖ ≤ e) ∧
      ∃ v ∈ u, ∃ k ≤ n.toNat, e = ‖v - u0 * Complex.exp (lam * (k * (tEnd / n) : ℝ))‖ := by
  have e1 : g.errorDahlquist lam u0 tEnd n (some u) emb =
      errorInf u n fun i => u0 * Complex.exp (lam * (i * (tEnd / n) : ℝ)) := rfl
  have e2 : errorDahlquistSDC lam u0 tEnd n nSweeps Q QD w (some u) =
      errorInf u n fun i => u0 * Complex.exp (lam * (i * (tEnd / n) : ℝ)) := rfl
  rw [e1, e2]
  obtain ⟨h1, h2, h3⟩ := errorInf_sizes u n fun i => u0 * Complex.exp (lam * (i * (tEnd / n) : ℝ))
  refine ⟨rfl, h1, h2, fun e he => ?_⟩
  obtain ⟨a, b, c⟩ := h3 e he
  exact ⟨a, by simpa using b, c⟩

/-- A single value compared with the solution at three times. -/
example : ∃ e, backwardEulerGen.errorDahlquist 0 1 1 2 (some [4]) = .ok e ∧ e = 3 := by
  obtain ⟨-, h, -, h3⟩ := C30_given_sizes backwardEulerGen 0 1 1 2 false [4] 0 0 .other none
  obtain ⟨e, he⟩ := h.2 ⟨by norm_num, by simp, Or.inr (Or.inl rfl)⟩
  obtain ⟨-, -, v, hv, k, -, hk⟩ := h3 e he
  refine ⟨e, he, ?_⟩
  have : v = 4 := by simpa using hv
  subst this
  rw [hk]; norm_num

/-- A given solution with two values. -/
example : ∃ e, backwardEulerGen.errorDahlquist 0 1 1 1 (some [1, 3]) = .ok e ∧ e = 2 := by
  obtain ⟨e, he, hb, k, v, hv, ha⟩ := (C30_errorDahlquist backwardEulerGen 0 1 1 1 false (some [1, 3])).1 [1, 3]
    (Or.inl rfl) rfl
  refine ⟨e, he, le_antisymm ?_ ?_⟩
  · rw [ha]
    rcases k with _ | _ | k
    · simp at hv; subst hv; simp
    · simp at hv; subst hv; norm_num
    · simp at hv
  · have := hb 1 3 rfl
    norm_num at this
    exact this

end QMat
