import Verif.Model.QCoeff
import Verif.Lemmas.NodesOrth
import Verif.Props.Lagrange
import Verif.Props.Integration

/-!
# Lemmas on `Collocation`
-/

namespace QMat

open Polynomial Spec NodesGenerator Matrix

/-- Two vectors of weights on distinct nodes agreeing on polynomials of degree `< n` are equal. -/
theorem weights_ext {n : ℕ} {x : Fin n → ℝ} (hx : Function.Injective x) {w w' : Fin n → ℝ}
    (h : ∀ p : ℝ[X], p.degree < n → ∑ i, w i * p.eval (x i) = ∑ i, w' i * p.eval (x i)) :
    w = w' := by
  ext j
  have hdeg : (Lagrange.basis Finset.univ x j).degree < n := by
    rw [Lagrange.degree_basis hx.injOn (Finset.mem_univ j), Finset.card_univ, Fintype.card_fin]
    exact_mod_cast Nat.sub_lt j.pos Nat.one_pos
  have hv : ∀ k, (Lagrange.basis Finset.univ x j).eval (x k) = if k = j then 1 else 0 := by
    intro k
    by_cases hk : k = j
    · subst hk
      simp [Lagrange.eval_basis_self hx.injOn]
    · simp [hk, Lagrange.eval_basis_of_ne (Ne.symm hk)]
  simpa [hv] using h _ hdeg

theorem snapAt_apply {M : ℕ} (t : ℝ) (k : Fin M) (x : Fin M → ℝ) (i : Fin M) :
    snapAt t k x i = x i ∨ (i = k ∧ npIsClose t (x k) ∧ snapAt t k x i = t) := by
  unfold snapAt
  split_ifs with h
  · by_cases hi : i = k
    · subst hi; exact Or.inr ⟨rfl, h, by simp⟩
    · left; simp [hi]
  · exact Or.inl rfl

theorem snapAt_of_ne {M : ℕ} (t : ℝ) {k i : Fin M} (x : Fin M → ℝ) (h : i ≠ k) :
    snapAt t k x i = x i := by
  rcases snapAt_apply t k x i with h' | ⟨h', -⟩
  · exact h'
  · exact absurd h' h

theorem npIsClose_self (a : ℝ) : npIsClose a a := by
  unfold npIsClose; rw [sub_self, abs_zero]; positivity

theorem snapAt_self {M : ℕ} {t : ℝ} {k : Fin M} {x : Fin M → ℝ} (h : x k = t) :
    snapAt t k x = x := by
  unfold snapAt
  split_ifs
  · rw [← h]; simp
  · rfl

theorem snap_right_strictMono {M : ℕ} {t : ℝ} {x : Fin M → ℝ} (hx : StrictMono x)
    (hle : ∀ i, x i ≤ t) {k : Fin M} (hk : (k : ℕ) = M - 1) : StrictMono (snapAt t k x) := by
  intro i j hij
  have hi : i ≠ k := by
    intro h; subst h; have := j.isLt; have := Fin.lt_def.mp hij; omega
  rw [snapAt_of_ne _ _ hi]
  rcases snapAt_apply t k x j with h | ⟨-, -, h⟩
  · rw [h]; exact hx hij
  · rw [h]; exact lt_of_lt_of_le (hx hij) (hle j)

theorem snap_left_strictMono {M : ℕ} {t : ℝ} {x : Fin M → ℝ} (hx : StrictMono x)
    (hle : ∀ i, t ≤ x i) {k : Fin M} (hk : (k : ℕ) = 0) : StrictMono (snapAt t k x) := by
  intro i j hij
  have hj : j ≠ k := by
    intro h; subst h; have := Fin.lt_def.mp hij; omega
  rw [snapAt_of_ne _ _ hj]
  rcases snapAt_apply t k x i with h | ⟨-, -, h⟩
  · rw [h]; exact hx hij
  · rw [h]; exact lt_of_le_of_lt (hle i) (hx hij)

theorem scaleNodes_strictMono {M : ℕ} {a b : ℝ} (hab : a < b) {x : Fin M → ℝ} (hx : StrictMono x) :
    StrictMono (scaleNodes a b x) := by
  intro i j hij
  have := hx hij
  unfold scaleNodes
  nlinarith

theorem scaleNodes_mem {M : ℕ} {a b : ℝ} (hab : a < b) {x : Fin M → ℝ} {i : Fin M}
    (hx : x i ∈ Set.Icc (-1 : ℝ) 1) : scaleNodes a b x i ∈ Set.Icc a b := by
  obtain ⟨h1, h2⟩ := hx
  unfold scaleNodes
  constructor <;> nlinarith

/-- Everything the constructor establishes. -/
structure CollSpec {M : ℕ} (nt qt : String) (a b : ℝ) (c : Collocation M) (x : Fin M → ℝ)
    (hM : 0 < M) : Prop where
  hnt : nt ∈ NODE_TYPES
  hqt : qt ∈ QUAD_TYPES
  getNodes : getNodes ⟨nt, qt⟩ M = .ok x
  nodeType : c.nodeType = nt
  quadType : c.quadType = qt
  tLeft : c.tLeft = a
  tRight : c.tRight = b
  nodes : c.nodes = snapAt b ⟨M - 1, by omega⟩ (snapAt a ⟨0, hM⟩ (scaleNodes a b x))
  approx : LagrangeApproximation.new c.nodes = .ok c.approx
  Q : c.approx.getIntegrationMatrix noExternalQuad (fun i => (a, c.nodes i)) = .ok c.Q
  weights : ∃ w, c.approx.getIntegrationMatrix noExternalQuad (fun _ : Fin 1 => (a, b)) = .ok w ∧
    c.weights = w 0

theorem collocation_spec {M : ℕ} {nt qt : String} {a b : ℝ} {c : Collocation M}
    (hc : Collocation.new M nt qt a b = .ok c) : ∃ x hM, CollSpec nt qt a b c x hM := by
  unfold Collocation.new at hc
  simp only [bind, Except.bind, pure, Except.pure] at hc
  by_cases hv : nt ∈ NODE_TYPES ∧ qt ∈ QUAD_TYPES
  · rw [(C15_constructor_errors nt qt).1 hv] at hc
    simp only at hc
    split at hc
    · cases hc
    · rename_i x hx
      have hM : 0 < M := (validSize_of_getNodes hx).1
      simp only [snapEnds, hM, dif_pos] at hc
      split at hc
      · cases hc
      · rename_i L hL
        split at hc
        · cases hc
        · rename_i Q hQ
          split at hc
          · cases hc
          · rename_i w hw
            cases hc
            exact ⟨x, hM, hv.1, hv.2, hx, rfl, rfl, rfl, rfl, rfl, hL, hQ, w, hw, rfl⟩
  · rw [(C15_constructor_errors nt qt).2 hv] at hc
    cases hc

namespace CollSpec

variable {M : ℕ} {nt qt : String} {a b : ℝ} {c : Collocation M} {x : Fin M → ℝ} {hM : 0 < M}

theorem base (h : CollSpec nt qt a b c x hM) : StrictMono x ∧ (∀ i, x i ∈ Set.Icc (-1 : ℝ) 1) ∧
    ((∃ i, x i = -1) ↔ qt = "RADAU-LEFT" ∨ qt = "LOBATTO") ∧
    ((∃ i, x i = 1) ↔ qt = "RADAU-RIGHT" ∨ qt = "LOBATTO") := by
  obtain ⟨x', hx', r⟩ := getNodes_all h.hnt h.hqt (validSize_of_getNodes h.getNodes)
  have := h.getNodes
  rw [hx'] at this
  cases this
  exact r

theorem first (h : CollSpec nt qt a b c x hM) (hq : qt = "RADAU-LEFT" ∨ qt = "LOBATTO") :
    x ⟨0, hM⟩ = -1 := by
  obtain ⟨hs, hr, hl, -⟩ := h.base
  obtain ⟨i, hi⟩ := hl.mpr hq
  exact le_antisymm (hi ▸ hs.monotone (Fin.mk_le_of_le_val (Nat.zero_le _))) (hr _).1

theorem last (h : CollSpec nt qt a b c x hM) (hq : qt = "RADAU-RIGHT" ∨ qt = "LOBATTO") :
    x ⟨M - 1, by omega⟩ = 1 := by
  obtain ⟨hs, hr, -, hrr⟩ := h.base
  obtain ⟨i, hi⟩ := hrr.mpr hq
  refine le_antisymm (hr _).2 (hi ▸ hs.monotone ?_)
  have := i.isLt
  exact Fin.mk_le_mk.mpr (by omega)

theorem snapped (h : CollSpec nt qt a b c x hM) (hab : a < b) :
    StrictMono c.nodes ∧ ∀ i, c.nodes i ∈ Set.Icc a b := by
  obtain ⟨hs, hr, -⟩ := h.base
  have h1 := scaleNodes_strictMono hab hs
  have h1r : ∀ i, scaleNodes a b x i ∈ Set.Icc a b := fun i => scaleNodes_mem hab (hr i)
  have h2 := snap_left_strictMono h1 (fun i => (h1r i).1) (k := ⟨0, hM⟩) rfl
  have h2r : ∀ i, snapAt a ⟨0, hM⟩ (scaleNodes a b x) i ∈ Set.Icc a b := fun i => by
    rcases snapAt_apply a ⟨0, hM⟩ (scaleNodes a b x) i with e | ⟨-, -, e⟩ <;> rw [e]
    · exact h1r i
    · exact ⟨le_rfl, hab.le⟩
  rw [h.nodes]
  refine ⟨snap_right_strictMono h2 (fun i => (h2r i).2) rfl, fun i => ?_⟩
  rcases snapAt_apply b ⟨M - 1, by omega⟩ (snapAt a ⟨0, hM⟩ (scaleNodes a b x)) i with e | ⟨-, -, e⟩ <;>
    rw [e]
  · exact h2r i
  · exact ⟨hab.le, le_rfl⟩

theorem strictMono (h : CollSpec nt qt a b c x hM) (hab : a < b) : StrictMono c.nodes :=
  (h.snapped hab).1

/-- Any integration matrix built by the object is exact below degree `M`. -/
theorem integration (h : CollSpec nt qt a b c x hM) (hab : a < b) {r : ℕ}
    (intervals : Fin r → ℝ × ℝ) :
    ∃ Q, c.approx.getIntegrationMatrix noExternalQuad intervals = .ok Q ∧
      ∀ p : ℝ[X], p.degree < M → ∀ i,
        (Q *ᵥ vals p c.nodes) i = polyInt p (intervals i).1 (intervals i).2 :=
  C04_integration_exact c.nodes (h.strictMono hab) hM "AUTO" false "MAX" "USE_LEFT" none (by simp)
    c.approx h.approx noExternalQuad "FEJER" (by simp) (by simp) intervals

theorem Q_exact (h : CollSpec nt qt a b c x hM) (hab : a < b) (p : ℝ[X]) (hp : p.degree < M)
    (i : Fin M) : (c.Q *ᵥ vals p c.nodes) i = polyInt p a (c.nodes i) := by
  obtain ⟨Q, hQ, hex⟩ := h.integration hab fun i => (a, c.nodes i)
  have := h.Q
  rw [hQ] at this
  cases this
  exact hex p hp i

theorem weights_exact (h : CollSpec nt qt a b c x hM) (hab : a < b) (p : ℝ[X]) (hp : p.degree < M) :
    QuadExact c.nodes c.weights a b p := by
  obtain ⟨Q, hQ, hex⟩ := h.integration hab fun _ : Fin 1 => (a, b)
  obtain ⟨w, hw, hw'⟩ := h.weights
  rw [hQ] at hw
  cases hw
  rw [QuadExact, hw']
  exact hex p hp 0

theorem S_exact (h : CollSpec nt qt a b c x hM) (hab : a < b) :
    ∃ S, c.S = .ok S ∧ ∀ p : ℝ[X], p.degree < M → ∀ i, (S *ᵥ vals p c.nodes) i =
      polyInt p (if (i : ℕ) = 0 then a
        else c.nodes ⟨i - 1, lt_of_le_of_lt (Nat.sub_le _ _) i.isLt⟩) (c.nodes i) := by
  have := h.integration hab fun i => (if (i : ℕ) = 0 then c.tLeft
    else c.nodes ⟨i - 1, lt_of_le_of_lt (Nat.sub_le _ _) i.isLt⟩, c.nodes i)
  rw [h.tLeft] at this
  unfold Collocation.S
  rw [h.tLeft]
  exact this

theorem interp (h : CollSpec nt qt a b c x hM) (hab : a < b) {r : ℕ} (times : Fin r → ℝ) (p : ℝ[X])
    (hp : p.degree < M) : c.approx.getInterpolationMatrix times *ᵥ vals p c.nodes = vals p times :=
  C01_interpolation_exact c.nodes (h.strictMono hab) "AUTO" false "MAX" "USE_LEFT" none (by simp)
    c.approx h.approx times p hp

end CollSpec

/-- The constructor succeeds on every documented configuration. -/
theorem collocation_new_ok {M : ℕ} {nt qt : String} (hnt : nt ∈ NODE_TYPES) (hqt : qt ∈ QUAD_TYPES)
    (hn : ValidSize qt M) (a b : ℝ) : ∃ c, Collocation.new M nt qt a b = .ok c := by
  have hM : 0 < M := hn.1
  obtain ⟨x, hx, -⟩ := getNodes_all hnt hqt hn
  unfold Collocation.new
  simp only [bind, Except.bind, pure, Except.pure, (C15_constructor_errors nt qt).1 ⟨hnt, hqt⟩, hx,
    snapEnds, hM, dif_pos]
  obtain ⟨L, hL⟩ := C01_constructor_total hM (snapAt b ⟨M - 1, by omega⟩
    (snapAt a ⟨0, hM⟩ (scaleNodes a b x))) "AUTO" false "MAX" "USE_LEFT"
    ⟨by decide, by decide, by decide, by simp⟩
  simp only [hL]
  have tot : ∀ {r : ℕ} (iv : Fin r → ℝ × ℝ), ∃ Q, L.getIntegrationMatrix noExternalQuad iv = .ok Q := by
    intro r iv
    obtain ⟨rule, hr, -⟩ := quadRule_exact noExternalQuad "FEJER" M hM (by simp) (by simp)
    exact ⟨_, by simp only [LagrangeApproximation.getIntegrationMatrix, hr, bind, Except.bind]; rfl⟩
  obtain ⟨Q, hQ⟩ := tot fun i => (a, snapAt b ⟨M - 1, by omega⟩
    (snapAt a ⟨0, hM⟩ (scaleNodes a b x)) i)
  obtain ⟨w, hw⟩ := tot fun _ : Fin 1 => (a, b)
  simp only [hQ, hw]
  exact ⟨_, rfl⟩

end QMat
