import Verif.Props.Collocation
import Verif.Props.Dahlquist
import Verif.Lemmas.CollOrder
import Verif.Lemmas.NodesGap

/-!
# C28, C29: `Collocation.order`, as quadrature order and as order of convergence
-/

namespace QMat

open Polynomial Spec NodesGenerator Matrix

/-- The interval is wide enough, relative to its position and to the number of nodes, for the
closeness tests of the constructor. -/
def Wide (M : ℕ) (a b : ℝ) : Prop :=
  4 * (M:ℝ) ^ 2 * (1 / 10 ^ 8 + 1 / 10 ^ 5 * max |a| |b|) < b - a

/-- `[0, 1]` is wide enough for up to 158 nodes. -/
example (M : ℕ) (hM : M ≤ 158) : Wide M 0 1 := by
  have : (M:ℝ) ≤ 158 := by exact_mod_cast hM
  have h0 : (0:ℝ) ≤ M := by positivity
  unfold Wide
  norm_num
  nlinarith

theorem unsnapped_of_wide {M : ℕ} {nt qt : String} {a b : ℝ} (hw : Wide M a b)
    (c : Collocation M) (hc : Collocation.new M nt qt a b = .ok c)
    (h : BonusType nt qt) (x : Fin M → ℝ) (hx : getNodes ⟨nt, qt⟩ M = .ok x) (i : Fin M) :
    c.nodes i = a + (b - a) * ((x i + 1) / 2) := by
  obtain ⟨x', hM, hS⟩ := collocation_spec hc
  have := hS.getNodes
  rw [hx] at this
  cases this
  have hM1 : (1:ℝ) ≤ M := by exact_mod_cast hM
  have hmax : 0 ≤ max |a| |b| := le_max_of_le_left (abs_nonneg a)
  have hab : a < b := by
    unfold Wide at hw
    have : 0 ≤ 4 * (M:ℝ) ^ 2 * (1 / 10 ^ 8 + 1 / 10 ^ 5 * max |a| |b|) := by positivity
    linarith
  obtain ⟨hl, hr⟩ := nodes_gap hS.hqt h x hx hM
  -- the tolerance is below the distance
  have tol : ∀ t, a ≤ t → t ≤ b → ∀ g, 1 / (2 * (M:ℝ) ^ 2) ≤ g →
      1 / 10 ^ 8 + 1 / 10 ^ 5 * |t| < (b - a) * (g / 2) := by
    intro t h1 h2 g hg
    have ht : |t| ≤ max |a| |b| := abs_le_max_abs_abs h1 h2
    have e1 : 1 / 10 ^ 8 + 1 / 10 ^ 5 * |t| ≤ 1 / 10 ^ 8 + 1 / 10 ^ 5 * max |a| |b| := by linarith
    have e2 : 1 / 10 ^ 8 + 1 / 10 ^ 5 * max |a| |b| < (b - a) / (4 * (M:ℝ) ^ 2) := by
      rw [lt_div_iff₀ (by positivity)]
      unfold Wide at hw
      linarith
    have e3 : (b - a) / (4 * (M:ℝ) ^ 2) ≤ (b - a) * (g / 2) := by
      have : (b - a) / (4 * (M:ℝ) ^ 2) = (b - a) * (1 / (2 * (M:ℝ) ^ 2) / 2) := by field_simp; norm_num
      rw [this]
      exact mul_le_mul_of_nonneg_left (by linarith) (by linarith)
    linarith
  have hmem : ∀ k, a ≤ a + (b - a) * ((x k + 1) / 2) ∧ a + (b - a) * ((x k + 1) / 2) ≤ b := by
    intro k
    have h2 := hS.base.2.1 k
    constructor
    · have : 0 ≤ (b - a) * ((x k + 1) / 2) := mul_nonneg (by linarith) (by linarith [h2.1])
      linarith
    · have : (b - a) * ((x k + 1) / 2) ≤ (b - a) * 1 :=
        mul_le_mul_of_nonneg_left (by linarith [h2.2]) (by linarith)
      linarith
  refine nodes_unsnapped c hc x hx hM (hl.imp id fun hg hcl => ?_) (hr.imp id fun hg hcl => ?_) i
  · unfold npIsClose at hcl
    have := tol _ (hmem ⟨0, hM⟩).1 (hmem ⟨0, hM⟩).2 _ hg
    rw [abs_sub_comm, abs_of_nonneg (by linarith [(hmem ⟨0, hM⟩).1])] at hcl
    have e : (b - a) * ((1 + x ⟨0, hM⟩) / 2) =
      a + (b - a) * ((x ⟨0, hM⟩ + 1) / 2) - a := by ring
    linarith
  · unfold npIsClose at hcl
    have := tol _ (hmem ⟨M - 1, by omega⟩).1 (hmem ⟨M - 1, by omega⟩).2 _ hg
    rw [abs_of_nonneg (by linarith [(hmem ⟨M - 1, by omega⟩).2])] at hcl
    have e : (b - a) * ((1 - x ⟨M - 1, by omega⟩) / 2) =
      b - (a + (b - a) * ((x ⟨M - 1, by omega⟩ + 1) / 2)) := by ring
    linarith

/-- C28: on every interval that is not tiny relative to its position (`[0, 1]` with up to 158 nodes
for instance) the weights integrate every polynomial of degree `< order` exactly. -/
theorem C28_quadrature_order {M : ℕ} {nt qt : String} {a b : ℝ} (hw : Wide M a b)
    (c : Collocation M) (hc : Collocation.new M nt qt a b = .ok c) :
    ∃ order, c.order = some order ∧ M ≤ order ∧ ∀ p : ℝ[X], p.degree < order →
      ∑ j, c.weights j * p.eval (c.nodes j) = ∫ t in a..b, p.eval t := by
  obtain ⟨x, hM, h⟩ := collocation_spec hc
  have hab : a < b := by
    unfold Wide at hw
    have hmax : 0 ≤ max |a| |b| := le_max_of_le_left (abs_nonneg a)
    have : 0 ≤ 4 * (M:ℝ) ^ 2 * (1 / 10 ^ 8 + 1 / 10 ^ 5 * max |a| |b|) := by positivity
    linarith
  by_cases hL : qt = "LOBATTO"
  · subst hL
    exact C28_quadrature_order_lobatto hab c hc
  by_cases hB : BonusType nt qt
  · exact C28_quadrature_order_unmoved hab c hc x h.getNodes
      (unsnapped_of_wide hw c hc hB x h.getNodes)
  · refine ⟨M, ?_, le_refl _, fun p hp => h.weights_exact hab p hp⟩
    unfold BonusType at hB
    push Not at hB
    have h1 : nt ≠ "LEGENDRE" := fun e => hL (hB.1 e)
    unfold Collocation.order
    rw [h.nodeType, h.quadType, if_pos h1, if_neg]
    rintro ⟨hq, hn⟩
    simp only [List.mem_cons, List.not_mem_nil, or_false] at hq
    rcases hq with hq | hq
    · exact hB.2 hn hq
    · exact hL hq

/-- C24 on wide intervals: end points are nodes exactly when asked for, for the configurations whose
order exceeds the number of nodes, other than `LOBATTO` (for which `C24_boundary_iff` needs no width). -/
theorem C24_boundary_nodes_wide {M : ℕ} {nt qt : String} {a b : ℝ} (hw : Wide M a b)
    (hB : BonusType nt qt) (c : Collocation M) (hc : Collocation.new M nt qt a b = .ok c) :
    ((∃ i, c.nodes i = a) ↔ qt = "RADAU-LEFT" ∨ qt = "LOBATTO") ∧
    ((∃ i, c.nodes i = b) ↔ qt = "RADAU-RIGHT" ∨ qt = "LOBATTO") := by
  obtain ⟨x, hM, h⟩ := collocation_spec hc
  have hab : a < b := by
    unfold Wide at hw
    have hmax : 0 ≤ max |a| |b| := le_max_of_le_left (abs_nonneg a)
    have : 0 ≤ 4 * (M:ℝ) ^ 2 * (1 / 10 ^ 8 + 1 / 10 ^ 5 * max |a| |b|) := by positivity
    linarith
  exact C24_boundary_nodes_unmoved hab c hc x h.getNodes (unsnapped_of_wide hw c hc hB x h.getNodes)

/-- The `QGenerator` of a collocation on `[0, 1]` satisfies the linear order conditions up to the
quadrature order. -/
theorem collocation_order_conditions {M p : ℕ} {nt qt : String}
    (c : Collocation M) (hc : Collocation.new M nt qt 0 1 = .ok c)
    (hp : ∀ q : ℝ[X], q.degree < p →
      ∑ j, c.weights j * q.eval (c.nodes j) = ∫ t in (0:ℝ)..1, q.eval t) :
    LinearOrder c.Q c.weights p := by
  obtain ⟨x, hM, h⟩ := collocation_spec hc
  exact collocation_linearOrder (h.strictMono (by norm_num)).injective
    (h.Q_exact (by norm_num)) hp

/-- C29: a collocation method on `[0, 1]` with up to 158 nodes converges with the order that
`Collocation.order` returns: for every `lam`, `u0` and final time `errorDahlquist` succeeds for all
large numbers of steps and is `O(nSteps^{-order})`. -/
theorem C29_collocation_order_small {M : ℕ} (hM : M ≤ 158) {nt qt : String}
    (c : Collocation M) (hc : Collocation.new M nt qt 0 1 = .ok c) (lam u0 : ℂ) (tEnd : ℝ) :
    ∃ order, c.order = some order ∧ ∃ (K : ℝ) (N : ℕ), ∀ n : ℕ, N ≤ n →
      ∃ e, c.toQGenerator.errorDahlquist lam u0 tEnd n = .ok e ∧ e ≤ K / n ^ order := by
  have hw : Wide M 0 1 := by
    have : (M:ℝ) ≤ 158 := by exact_mod_cast hM
    have h0 : (0:ℝ) ≤ M := by positivity
    unfold Wide
    norm_num
    nlinarith
  obtain ⟨order, ho, -, hex⟩ := C28_quadrature_order hw c hc
  exact ⟨order, ho, C31_linear_order c.toQGenerator order
    (collocation_order_conditions c hc hex) lam u0 tEnd⟩

/-- Instance: three Radau nodes. -/
example : ∃ (c : Collocation 3) (order : ℕ), Collocation.new 3 "LEGENDRE" "RADAU-RIGHT" 0 1 = .ok c ∧
    c.order = some order ∧ ∃ (K : ℝ) (N : ℕ), ∀ n : ℕ, N ≤ n →
      ∃ e, c.toQGenerator.errorDahlquist Complex.I 1 2 n = .ok e ∧ e ≤ K / n ^ order := by
  obtain ⟨c, hc⟩ := collocation_new_ok (M := 3) (nt := "LEGENDRE") (qt := "RADAU-RIGHT") (by decide)
    (by decide) ⟨by norm_num, fun _ => by norm_num⟩ 0 1
  obtain ⟨order, h⟩ := C29_collocation_order_small (by norm_num) c hc Complex.I 1 2
  exact ⟨c, order, hc, h⟩

/-- C29 for `LOBATTO`, any number of nodes. -/
theorem C29_collocation_order_lobatto {M : ℕ} {nt : String}
    (c : Collocation M) (hc : Collocation.new M nt "LOBATTO" 0 1 = .ok c) (lam u0 : ℂ) (tEnd : ℝ) :
    ∃ order, c.order = some order ∧ ∃ (K : ℝ) (N : ℕ), ∀ n : ℕ, N ≤ n →
      ∃ e, c.toQGenerator.errorDahlquist lam u0 tEnd n = .ok e ∧ e ≤ K / n ^ order := by
  obtain ⟨order, ho, -, hex⟩ := C28_quadrature_order_lobatto (by norm_num) c hc
  exact ⟨order, ho, C31_linear_order c.toQGenerator order
    (collocation_order_conditions c hc hex) lam u0 tEnd⟩

/-- C29, any number of nodes and any type: the order is at least the number of nodes. -/
theorem C29_collocation_order_nodes {M : ℕ} {nt qt : String}
    (c : Collocation M) (hc : Collocation.new M nt qt 0 1 = .ok c) (lam u0 : ℂ) (tEnd : ℝ) :
    ∃ (K : ℝ) (N : ℕ), ∀ n : ℕ, N ≤ n →
      ∃ e, c.toQGenerator.errorDahlquist lam u0 tEnd n = .ok e ∧ e ≤ K / n ^ M := by
  obtain ⟨x, hM, h⟩ := collocation_spec hc
  exact C31_linear_order c.toQGenerator M
    (collocation_order_conditions c hc fun q hq => h.weights_exact (by norm_num) q hq) lam u0 tEnd

/-- Three Radau nodes: order 5. -/
example : ∃ c : Collocation 3, Collocation.new 3 "LEGENDRE" "RADAU-RIGHT" = .ok c ∧ c.order = some 5 := by
  obtain ⟨c, hc⟩ := collocation_new_ok (M := 3) (nt := "LEGENDRE") (qt := "RADAU-RIGHT") (by decide)
    (by decide) ⟨by norm_num, fun _ => by norm_num⟩ 0 1
  obtain ⟨x, hM, h⟩ := collocation_spec hc
  refine ⟨c, hc, ?_⟩
  unfold Collocation.order; rw [h.nodeType, h.quadType]
  simp [show pyStartsWith "RADAU-RIGHT" "RADAU" = true by decide]

/-- Instance of `C24_boundary_nodes_wide`, `C29_collocation_order_lobatto`. -/
example : (∃ c : Collocation 3, Collocation.new 3 "LEGENDRE" "RADAU-LEFT" 0 1 = .ok c ∧ (∃ i, c.nodes i = 0) ∧
      ¬ ∃ i, c.nodes i = 1) ∧
    ∃ c : Collocation 3, Collocation.new 3 "LEGENDRE" "LOBATTO" 0 1 = .ok c ∧ ∃ order, c.order = some order := by
  obtain ⟨c', hc'⟩ := collocation_new_ok (M := 3) (nt := "LEGENDRE") (qt := "RADAU-LEFT") (by decide)
    (by decide) ⟨by norm_num, fun _ => by norm_num⟩ 0 1
  have h := C24_boundary_nodes_wide (by unfold Wide; norm_num) (Or.inl ⟨rfl, by decide⟩) c' hc'
  obtain ⟨c, hc⟩ := collocation_new_ok (M := 3) (nt := "LEGENDRE") (qt := "LOBATTO") (by decide)
    (by decide) ⟨by norm_num, fun _ => by norm_num⟩ 0 1
  obtain ⟨order, ho, -⟩ := C29_collocation_order_lobatto c hc Complex.I 1 2
  exact ⟨⟨c', hc', h.1.2 (Or.inl rfl), fun h' => absurd (h.2.1 h') (by decide)⟩, c, hc, order, ho⟩

end QMat
