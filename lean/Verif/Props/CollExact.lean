import Verif.Props.CollOrder
import Mathlib.MeasureTheory.Integral.IntervalIntegral.Basic

/-!
# C24, C28, C29: what the closeness tests of `Collocation` do to nodes and order
-/

namespace QMat

open Polynomial Spec NodesGenerator Matrix

/-- C24, exactly: with two nodes or more, the first node is `tLeft` if it is `np.allclose` to it, the last one
`tRight` in the same way, and all other nodes are the nodes of the generator, scaled to the interval. -/
theorem C24_nodes_exact {M : ℕ} {nt qt : String} {a b : ℝ} (hM : 2 ≤ M)
    (c : Collocation M) (hc : Collocation.new M nt qt a b = .ok c)
    (x : Fin M → ℝ) (hx : getNodes ⟨nt, qt⟩ M = .ok x) (i : Fin M) :
    c.nodes i =
      if (i : ℕ) = 0 ∧ |a - (a + (b - a) * ((x i + 1) / 2))| ≤
          1 / 10 ^ 8 + 1 / 10 ^ 5 * |a + (b - a) * ((x i + 1) / 2)| then a
      else if (i : ℕ) = M - 1 ∧ |b - (a + (b - a) * ((x i + 1) / 2))| ≤
          1 / 10 ^ 8 + 1 / 10 ^ 5 * |a + (b - a) * ((x i + 1) / 2)| then b
      else a + (b - a) * ((x i + 1) / 2) := by
  obtain ⟨x', hM', h⟩ := collocation_spec hc
  have := h.getNodes
  rw [hx] at this
  cases this
  have e : ∀ i, scaleNodes a b x i = a + (b - a) * ((x i + 1) / 2) := fun i => by
    unfold scaleNodes; ring
  have hne : (⟨0, hM'⟩ : Fin M) ≠ ⟨M - 1, by omega⟩ := by simp [Fin.ext_iff]; omega
  rw [h.nodes, ← e]
  by_cases hi0 : (i : ℕ) = 0
  · obtain rfl : i = ⟨0, hM'⟩ := Fin.ext hi0
    rw [snapAt_of_ne _ _ hne]
    simp only [true_and, show ¬ 0 = M - 1 by omega, false_and, if_false]
    unfold snapAt npIsClose
    split_ifs <;> simp
  · by_cases hi1 : (i : ℕ) = M - 1
    · have hi : (⟨M - 1, by omega⟩ : Fin M) = i := Fin.ext hi1.symm
      have h0 : snapAt a ⟨0, hM'⟩ (scaleNodes a b x) i = scaleNodes a b x i :=
        snapAt_of_ne _ _ (fun h => hi0 (by rw [h]))
      simp only [hi1, true_and, hi]
      unfold snapAt npIsClose at h0 ⊢
      rw [h0]
      split_ifs <;> simp_all
    · rw [snapAt_of_ne _ _ (fun h => hi1 (by rw [h])), snapAt_of_ne _ _ (fun h => hi0 (by rw [h]))]
      simp [hi0, hi1]

/-- Instance: the middle one of three nodes is not moved. -/
example : ∃ (c : Collocation 3) (x : Fin 3 → ℝ), Collocation.new 3 "EQUID" "GAUSS" 1 3 = .ok c ∧
    getNodes ⟨"EQUID", "GAUSS"⟩ 3 = .ok x ∧ c.nodes 1 = 1 + (3 - 1) * ((x 1 + 1) / 2) := by
  obtain ⟨c, hc⟩ := collocation_new_ok (M := 3) (nt := "EQUID") (qt := "GAUSS") (by decide)
    (by decide) ⟨by norm_num, fun h => by simp at h⟩ 1 3
  obtain ⟨x, hM, h⟩ := collocation_spec hc
  exact ⟨c, x, hc, h.getNodes, (C24_nodes_exact (by norm_num) c hc x h.getNodes 1).trans (by simp)⟩

/-- C24 for two nodes or more: an end point is a node exactly when the quadrature type asks for it or the
generator's outermost node is `np.allclose` to it. -/
theorem C24_boundary_iff {M : ℕ} {nt qt : String} {a b : ℝ} (hab : a < b) (hM : 2 ≤ M)
    (c : Collocation M) (hc : Collocation.new M nt qt a b = .ok c)
    (x : Fin M → ℝ) (hx : getNodes ⟨nt, qt⟩ M = .ok x) :
    ((∃ i, c.nodes i = a) ↔ (qt = "RADAU-LEFT" ∨ qt = "LOBATTO") ∨
      |a - (a + (b - a) * ((x ⟨0, by omega⟩ + 1) / 2))| ≤
        1 / 10 ^ 8 + 1 / 10 ^ 5 * |a + (b - a) * ((x ⟨0, by omega⟩ + 1) / 2)|) ∧
    ((∃ i, c.nodes i = b) ↔ (qt = "RADAU-RIGHT" ∨ qt = "LOBATTO") ∨
      |b - (a + (b - a) * ((x ⟨M - 1, by omega⟩ + 1) / 2))| ≤
        1 / 10 ^ 8 + 1 / 10 ^ 5 * |a + (b - a) * ((x ⟨M - 1, by omega⟩ + 1) / 2)|) := by
  obtain ⟨hs, hr, hl, hrr⟩ := C24_collocation_nodes hab c hc
  have hn := C24_nodes_exact hM c hc x hx
  obtain ⟨x', hM', h⟩ := collocation_spec hc
  have := h.getNodes
  rw [hx] at this
  cases this
  obtain ⟨-, hxr, hxl, hxrr⟩ := h.base
  constructor
  · constructor
    · rintro ⟨i, hi⟩
      have hi0 : i = ⟨0, by omega⟩ := by
        by_contra hne
        have : (⟨0, by omega⟩ : Fin M) < i := Fin.lt_def.mpr (by
          have : (i : ℕ) ≠ 0 := fun h => hne (Fin.ext h)
          change 0 < (i : ℕ)
          omega)
        have h1 := hs this
        have h2 := (hr ⟨0, by omega⟩).1
        linarith
      subst hi0
      rw [hn] at hi
      split_ifs at hi with h1 h2
      · exact Or.inr h1.2
      · simp only at h2; omega
      · refine Or.inl (hxl.mp ⟨⟨0, hM'⟩, ?_⟩)
        have : (b - a) * ((x ⟨0, by omega⟩ + 1) / 2) = 0 := by linarith
        rcases mul_eq_zero.mp this with h | h
        · linarith
        · linarith
    · rintro (hq | hcl)
      · exact hl hq
      · exact ⟨⟨0, by omega⟩, by rw [hn, if_pos ⟨rfl, hcl⟩]⟩
  · constructor
    · rintro ⟨i, hi⟩
      have hi0 : i = ⟨M - 1, by omega⟩ := by
        by_contra hne
        have : i < (⟨M - 1, by omega⟩ : Fin M) := Fin.lt_def.mpr (by
          have : (i : ℕ) ≠ M - 1 := fun h => hne (Fin.ext h)
          change (i : ℕ) < M - 1
          omega)
        have h1 := hs this
        have h2 := (hr ⟨M - 1, by omega⟩).2
        linarith
      subst hi0
      rw [hn] at hi
      split_ifs at hi with h1 h2
      · linarith
      · exact Or.inr h2.2
      · refine Or.inl (hxrr.mp ⟨⟨M - 1, by omega⟩, ?_⟩)
        have : (b - a) * ((x ⟨M - 1, by omega⟩ + 1) / 2 - 1) = 0 := by linarith
        rcases mul_eq_zero.mp this with h | h
        · linarith
        · linarith
    · rintro (hq | hcl)
      · exact hrr hq (Or.inl hM)
      · refine ⟨⟨M - 1, by omega⟩, ?_⟩
        rw [hn, if_neg (by simp; omega), if_pos ⟨rfl, hcl⟩]

/-- C24, one node: the two tests one after the other. -/
theorem C24_one_node {nt qt : String} {a b : ℝ} (c : Collocation 1) (hc : Collocation.new 1 nt qt a b = .ok c)
    (x : Fin 1 → ℝ) (hx : getNodes ⟨nt, qt⟩ 1 = .ok x) (y z : ℝ) (hy : y = a + (b - a) * ((x 0 + 1) / 2))
    (hz : z = if |a - y| ≤ 1 / 10 ^ 8 + 1 / 10 ^ 5 * |y| then a else y) :
    c.nodes 0 = if |b - z| ≤ 1 / 10 ^ 8 + 1 / 10 ^ 5 * |z| then b else z := by
  obtain ⟨x', hM', h⟩ := collocation_spec hc
  have := h.getNodes
  rw [hx] at this
  cases this
  have e : scaleNodes a b x 0 = y := by rw [hy]; unfold scaleNodes; ring
  have h1 : snapAt a ⟨0, hM'⟩ (scaleNodes a b x) 0 = z := by
    rw [hz]
    change snapAt a 0 _ 0 = _
    unfold snapAt npIsClose
    rw [e]
    split_ifs
    · simp
    · exact e
  rw [h.nodes]
  change snapAt b 0 (snapAt a ⟨0, hM'⟩ (scaleNodes a b x)) 0 = _
  generalize snapAt a ⟨0, hM'⟩ (scaleNodes a b x) = v at h1 ⊢
  unfold snapAt npIsClose
  rw [h1]
  split_ifs
  · simp
  · exact h1

/-! ## The order -/

/-- A quadrature rule with `r` end points among its `M` nodes has at most order `2M - r`. -/
theorem order_le_of_ends {M p : ℕ} {a b : ℝ} (hab : a < b) {x w : Fin M → ℝ}
    (hex : ∀ q : ℝ[X], q.degree < p → ∑ j, w j * q.eval (x j) = polyInt q a b) :
    p + (Finset.univ.filter fun i => x i = a ∨ x i = b).card ≤ 2 * M := by
  classical
  set F : Fin M → ℝ[X] := fun i =>
    if x i = a then X - C (x i) else if x i = b then C (x i) - X else (X - C (x i)) ^ 2 with hF
  have hroot : ∀ i, (F i).eval (x i) = 0 := fun i => by
    simp only [hF]; split_ifs <;> simp
  have hnon : ∀ i t, a ≤ t → t ≤ b → 0 ≤ (F i).eval t := fun i t h1 h2 => by
    simp only [hF]
    split_ifs with h h'
    · simp [h, h1]
    · simp [h', h2]
    · simp only [eval_pow]; positivity
  have hne : ∀ i t, t ≠ x i → (F i).eval t ≠ 0 := fun i t ht => by
    simp only [hF]
    split_ifs
    · simpa [sub_eq_zero] using ht
    · simpa [sub_eq_zero] using ht.symm
    · simpa [sub_eq_zero] using ht
  have hdeg : ∀ i, (F i).natDegree = 2 - if x i = a ∨ x i = b then 1 else 0 := fun i => by
    simp only [hF]
    by_cases h : x i = a
    · rw [if_pos h, if_pos (Or.inl h), natDegree_X_sub_C]
    · by_cases h' : x i = b
      · rw [if_neg h, if_pos h', if_pos (Or.inr h'), ← natDegree_neg, neg_sub, natDegree_X_sub_C]
      · rw [if_neg h, if_neg h', if_neg (by tauto), natDegree_pow, natDegree_X_sub_C]
  set P := ∏ i, F i with hP
  have hF0 : ∀ i, F i ≠ 0 := fun i h => by
    have := hne i (x i + 1) (by linarith)
    rw [h] at this
    simp at this
  have hPdeg : P.natDegree + (Finset.univ.filter fun i => x i = a ∨ x i = b).card = 2 * M := by
    rw [hP, natDegree_prod _ _ fun i _ => hF0 i, Finset.card_filter, ← Finset.sum_add_distrib]
    have : ∀ i : Fin M, (F i).natDegree + (if x i = a ∨ x i = b then 1 else 0) = 2 := fun i => by
      rw [hdeg]; split_ifs <;> rfl
    simp only [this]
    simp [mul_comm]
  by_contra hlt
  have hPp : P.degree < p := lt_of_le_of_lt degree_le_natDegree (by exact_mod_cast (by omega : P.natDegree < p))
  have h0 : polyInt P a b = 0 := by
    rw [← hex P hPp]
    refine Finset.sum_eq_zero fun j _ => ?_
    rw [hP, eval_prod, Finset.prod_eq_zero (Finset.mem_univ j) (hroot j), mul_zero]
  have hpos : 0 < polyInt P a b := by
    obtain ⟨t, ht, htx⟩ : ∃ t ∈ Set.Icc a b, t ∉ Set.range x :=
      ((Set.Icc_infinite hab).sdiff (Set.finite_range x)).nonempty
    refine intervalIntegral.integral_pos hab P.continuous.continuousOn (fun s hs => ?_) ⟨t, ht, ?_⟩
    · rw [hP, eval_prod]
      exact Finset.prod_nonneg fun i _ => hnon i s hs.1.le hs.2
    · rw [hP, eval_prod]
      refine Finset.prod_pos fun i _ => lt_of_le_of_ne (hnon i t ht.1 ht.2) (hne i t fun h => htx ⟨i, h.symm⟩).symm
  linarith

/-- The value of `Collocation.order` for the four quadrature types of `LEGENDRE` nodes. -/
theorem legendre_order {M : ℕ} {qt : String} {a b : ℝ} (c : Collocation M)
    (hc : Collocation.new M "LEGENDRE" qt a b = .ok c) :
    (qt = "GAUSS" ∧ c.order = some (2 * M)) ∨
    ((qt = "RADAU-LEFT" ∨ qt = "RADAU-RIGHT") ∧ c.order = some (2 * M - 1)) ∨
    (qt = "LOBATTO" ∧ 2 ≤ M ∧ c.order = some (2 * M - 2)) := by
  obtain ⟨x, hM, h⟩ := collocation_spec hc
  have hqt := h.hqt
  have hn := validSize_of_getNodes h.getNodes
  unfold Collocation.order
  rw [h.nodeType, h.quadType]
  simp only [QUAD_TYPES, List.mem_cons, List.not_mem_nil, or_false] at hqt
  rcases hqt with rfl | rfl | rfl | rfl
  · simp
  · simp [show pyStartsWith "RADAU-LEFT" "RADAU" = true by decide]
  · simp [show pyStartsWith "RADAU-RIGHT" "RADAU" = true by decide]
  · have := hn.2 (Or.inl rfl)
    simp [show pyStartsWith "LOBATTO" "RADAU" = false by decide]
    omega

/-- C28 for `LEGENDRE` nodes on any interval: the weights integrate every polynomial of degree `< order`
exactly if and only if the closeness tests of the constructor moved no node (or there is nothing to show, because
`order` is the number of nodes: one `RADAU` node, two `LOBATTO` nodes). -/
theorem C28_order_iff {M : ℕ} {qt : String} {a b : ℝ} (hab : a < b)
    (c : Collocation M) (hc : Collocation.new M "LEGENDRE" qt a b = .ok c)
    (x : Fin M → ℝ) (hx : getNodes ⟨"LEGENDRE", qt⟩ M = .ok x) :
    ∃ order, c.order = some order ∧
      ((∀ p : ℝ[X], p.degree < order → ∑ j, c.weights j * p.eval (c.nodes j) = ∫ t in a..b, p.eval t) ↔
        order = M ∨ ∀ i, c.nodes i = a + (b - a) * ((x i + 1) / 2)) := by
  classical
  obtain ⟨x', hM, h⟩ := collocation_spec hc
  have := h.getNodes
  rw [hx] at this
  cases this
  obtain ⟨-, hxr, hxl, hxrr⟩ := h.base
  have hqt := h.hqt
  obtain ⟨order, ho⟩ : ∃ order, c.order = some order := by
    rcases legendre_order c hc with ⟨-, h⟩ | ⟨-, h⟩ | ⟨-, -, h⟩ <;> exact ⟨_, h⟩
  refine ⟨order, ho, ?_, ?_⟩
  · intro hex
    have hcard := order_le_of_ends hab hex
    by_contra hcon
    push Not at hcon
    obtain ⟨hne, i, hi⟩ := hcon
    have hgauss : (c.nodes i = a ∨ c.nodes i = b) → 0 <
        (Finset.univ.filter fun i => c.nodes i = a ∨ c.nodes i = b).card := fun h =>
      Finset.card_pos.mpr ⟨i, by simpa using h⟩
    rcases Nat.lt_or_ge M 2 with hM1 | hM2
    · obtain rfl : M = 1 := by omega
      obtain rfl : i = 0 := Subsingleton.elim _ _
      have hend : c.nodes 0 = a ∨ c.nodes 0 = b := by
        have := C24_one_node c hc x hx _ _ rfl rfl
        split_ifs at this with h1 h2 h3
        · exact Or.inr this
        · exact Or.inl this
        · exact Or.inr this
        · exact absurd this hi
      have := hgauss hend
      rcases legendre_order c hc with ⟨-, h⟩ | ⟨-, h⟩ | ⟨-, h', -⟩
      · rw [ho] at h; cases h; omega
      · rw [ho] at h; cases h; exact hne rfl
      · omega
    · have hn := C24_nodes_exact hM2 c hc x hx
      -- scaled end points stay end points
      have hsub : ∀ k, (x k = -1 ∨ x k = 1) → (c.nodes k = a ∨ c.nodes k = b) := by
        intro k hk
        rw [hn]
        split_ifs
        · exact Or.inl rfl
        · exact Or.inr rfl
        · rcases hk with hk | hk
          · left; rw [hk]; ring
          · right; rw [hk]; ring
      have hmono := (getNodes_all h.hnt h.hqt (validSize_of_getNodes hx))
      obtain ⟨x'', hx'', hb⟩ := hmono
      rw [hx] at hx''
      cases hx''
      have hiE : (c.nodes i = a ∨ c.nodes i = b) ∧ x i ≠ -1 ∧ x i ≠ 1 := by
        have hni := hn i
        split_ifs at hni with h1 h2
        · refine ⟨Or.inl hni, fun h => hi (by rw [hni, h]; ring), fun h => ?_⟩
          have : i < (⟨M - 1, by omega⟩ : Fin M) := Fin.lt_def.mpr (by
            change (i : ℕ) < M - 1; omega)
          have h3 := hb.1 this
          have h4 := (hxr ⟨M - 1, by omega⟩).2
          linarith
        · refine ⟨Or.inr hni, fun h => ?_, fun h => hi (by rw [hni, h]; ring)⟩
          have : (⟨0, hM⟩ : Fin M) < i := Fin.lt_def.mpr (by
            change 0 < (i : ℕ); omega)
          have h3 := hb.1 this
          have h4 := (hxr ⟨0, hM⟩).1
          linarith
        · exact absurd hni hi
      rcases legendre_order c hc with ⟨-, h⟩ | ⟨hq, h⟩ | ⟨hq, -, h⟩
      · rw [ho] at h; cases h
        have := hgauss hiE.1
        omega
      · rw [ho] at h; cases h
        obtain ⟨k, hk⟩ : ∃ k, x k = -1 ∨ x k = 1 := by
          rcases hq with hq | hq
          · obtain ⟨k, hk⟩ := hxl.mpr (Or.inl hq); exact ⟨k, Or.inl hk⟩
          · obtain ⟨k, hk⟩ := hxrr.mpr (Or.inl hq); exact ⟨k, Or.inr hk⟩
        have : ({i, k} : Finset (Fin M)).card ≤
            (Finset.univ.filter fun i => c.nodes i = a ∨ c.nodes i = b).card := by
          refine Finset.card_le_card fun l hl => ?_
          simp only [Finset.mem_insert, Finset.mem_singleton] at hl
          simp only [Finset.mem_filter, Finset.mem_univ, true_and]
          rcases hl with rfl | rfl
          · exact hiE.1
          · exact hsub _ hk
        rw [Finset.card_pair (fun h => by subst h; rcases hk with hk | hk; exacts [hiE.2.1 hk, hiE.2.2 hk])] at this
        omega
      · rw [ho] at h; cases h
        obtain ⟨k, hk⟩ := hxl.mpr (Or.inr hq)
        obtain ⟨l, hl⟩ := hxrr.mpr (Or.inr hq)
        have : ({i, k, l} : Finset (Fin M)).card ≤
            (Finset.univ.filter fun i => c.nodes i = a ∨ c.nodes i = b).card := by
          refine Finset.card_le_card fun m hm => ?_
          simp only [Finset.mem_insert, Finset.mem_singleton] at hm
          simp only [Finset.mem_filter, Finset.mem_univ, true_and]
          rcases hm with rfl | rfl | rfl
          · exact hiE.1
          · exact hsub _ (Or.inl hk)
          · exact hsub _ (Or.inr hl)
        rw [Finset.card_eq_three.mpr ⟨i, k, l, fun h => hiE.2.1 (h ▸ hk), fun h => hiE.2.2 (h ▸ hl),
          fun h => by subst h; linarith, rfl⟩] at this
        omega
  · rintro (rfl | hun)
    · exact fun p hp => h.weights_exact hab p hp
    · obtain ⟨o, ho', -, hex⟩ := C28_quadrature_order_unmoved hab c hc x hx hun
      rw [ho] at ho'
      cases ho'
      exact hex

/-! ## Convergence -/

/-- C29, exactly: a collocation method on `[0, 1]` converges on Dahlquist's equation with order `p` if and only if
its weights integrate every polynomial of degree `< p` exactly. -/
theorem C29_convergence_iff {M : ℕ} {nt qt : String} (c : Collocation M)
    (hc : Collocation.new M nt qt 0 1 = .ok c) (p : ℕ) (lam u0 : ℂ) (tEnd : ℝ) (hlam : lam ≠ 0) (hu0 : u0 ≠ 0)
    (htEnd : tEnd ≠ 0) :
    (∃ (K : ℝ) (N : ℕ), ∀ n : ℕ, N ≤ n →
      ∃ e, c.toQGenerator.errorDahlquist lam u0 tEnd n = .ok e ∧ e ≤ K / n ^ p) ↔
    ∀ q : ℝ[X], q.degree < p → ∑ j, c.weights j * q.eval (c.nodes j) = ∫ t in (0:ℝ)..1, q.eval t := by
  classical
  obtain ⟨x, hM, h⟩ := collocation_spec hc
  constructor
  · rintro ⟨K, N, hK⟩
    refine collocation_quad_of_linearOrder (h.strictMono (by norm_num)).injective
      (h.Q_exact (by norm_num)) (h.weights_exact (by norm_num)) (p := p) ?_
    by_contra hno
    have hex : ∃ k, ¬ (k < p → c.weights ⬝ᵥ ((c.Q ^ k) *ᵥ fun _ => 1) = 1 / (k + 1).factorial) := by
      simpa only [Spec.LinearOrder, not_forall] using hno
    have hmin : ∀ l, l < Nat.find hex → _ := fun l hl => Nat.find_min hex hl
    have hk := Nat.find_spec hex
    set k := Nat.find hex
    push Not at hk
    obtain ⟨hkp, hkne⟩ := hk
    have hk0 : 0 < k := by
      rcases Nat.eq_zero_or_pos k with h0 | h0
      · exfalso
        apply hkne
        have h1 := h.weights_exact (by norm_num) 1 (by rw [degree_one]; exact_mod_cast hM)
        rw [h0]
        simpa [QuadExact, polyInt_one, dotProduct] using h1
      · exact h0
    have hlin : LinearOrder c.Q c.weights k := fun l hl => by
      have := hmin l hl
      push Not at this
      exact this (by omega)
    obtain ⟨d, N', hd, hlow⟩ := C31_order_sharp c.toQGenerator k hk0 hlin hkne lam u0 tEnd hlam hu0 htEnd
    obtain ⟨n, hn⟩ := exists_nat_gt (|K| / d)
    set m := n + N + N' + 1 with hm
    obtain ⟨e, he, hle⟩ := hK m (by omega)
    obtain ⟨e', he', hge⟩ := hlow m (by omega)
    rw [he] at he'
    cases he'
    have hm1 : (1:ℝ) ≤ m := by exact_mod_cast (by omega : 1 ≤ m)
    have hmn : (n:ℝ) ≤ m := by exact_mod_cast (by omega : n ≤ m)
    have h1 : d / (m:ℝ) ^ k ≤ K / (m:ℝ) ^ p := hge.trans hle
    have h2 : (m:ℝ) ^ p = (m:ℝ) ^ k * (m:ℝ) ^ (p - k) := by rw [← pow_add]; congr 1; omega
    have hpk : (0:ℝ) < (m:ℝ) ^ k := by positivity
    rw [h2, div_le_div_iff₀ hpk (by positivity)] at h1
    have h3 : d * (m:ℝ) ^ (p - k) ≤ K := by
      have : (m:ℝ) ^ k * (d * (m:ℝ) ^ (p - k)) ≤ (m:ℝ) ^ k * K := by nlinarith
      exact le_of_mul_le_mul_left this hpk
    have h4 : (m:ℝ) ≤ (m:ℝ) ^ (p - k) := le_self_pow₀ hm1 (by omega)
    have h5 : |K| < d * m := by
      rw [div_lt_iff₀ hd] at hn
      nlinarith
    have := le_abs_self K
    nlinarith
  · exact fun hex => C31_linear_order c.toQGenerator p (collocation_order_conditions c hc hex) lam u0 tEnd

/-- Instance: five equidistant nodes converge with order five. -/
example : ∃ c : Collocation 5, Collocation.new 5 "EQUID" "RADAU-LEFT" 0 1 = .ok c ∧ ∃ (K : ℝ) (N : ℕ), ∀ n : ℕ, N ≤ n →
      ∃ e, c.toQGenerator.errorDahlquist Complex.I 1 2 n = .ok e ∧ e ≤ K / n ^ 5 := by
  obtain ⟨c, hc⟩ := collocation_new_ok (M := 5) (nt := "EQUID") (qt := "RADAU-LEFT") (by decide)
    (by decide) ⟨by norm_num, fun _ => by norm_num⟩ 0 1
  obtain ⟨c', S, hc', -, h⟩ := C22_collocation_exact (M := 5) (nt := "EQUID") (qt := "RADAU-LEFT") (by decide)
    (by decide) ⟨by norm_num, fun _ => by norm_num⟩ (a := 0) (b := 1) (by norm_num)
  obtain rfl : c' = c := by rw [hc] at hc'; exact (Except.ok.inj hc').symm
  exact ⟨c', hc, (C29_convergence_iff c' hc 5 Complex.I 1 2 Complex.I_ne_zero one_ne_zero two_ne_zero).2
    fun q hq => (h q hq).2.1⟩

/-- C29 with any number of nodes: if the closeness tests of the constructor move no node, the method converges with
the order that `Collocation.order` returns. -/
theorem C29_collocation_order {M : ℕ} {nt qt : String} (c : Collocation M)
    (hc : Collocation.new M nt qt 0 1 = .ok c) (x : Fin M → ℝ) (hx : getNodes ⟨nt, qt⟩ M = .ok x)
    (hun : ∀ i, c.nodes i = (x i + 1) / 2) (lam u0 : ℂ) (tEnd : ℝ) :
    ∃ order, c.order = some order ∧ ∃ (K : ℝ) (N : ℕ), ∀ n : ℕ, N ≤ n →
      ∃ e, c.toQGenerator.errorDahlquist lam u0 tEnd n = .ok e ∧ e ≤ K / n ^ order := by
  obtain ⟨order, ho, -, hex⟩ := C28_quadrature_order_unmoved (by norm_num) c hc x hx
    (fun i => by rw [hun]; ring)
  exact ⟨order, ho, C31_linear_order c.toQGenerator order (collocation_order_conditions c hc hex) lam u0 tEnd⟩

/-- C29 for `LEGENDRE` nodes: the order of convergence is the one that `Collocation.order` returns if and only if
no node was moved (or the returned order is the number of nodes). -/
theorem C29_legendre_iff {M : ℕ} {qt : String} (c : Collocation M)
    (hc : Collocation.new M "LEGENDRE" qt 0 1 = .ok c)
    (x : Fin M → ℝ) (hx : getNodes ⟨"LEGENDRE", qt⟩ M = .ok x)
    (lam u0 : ℂ) (tEnd : ℝ) (hlam : lam ≠ 0) (hu0 : u0 ≠ 0) (htEnd : tEnd ≠ 0) :
    ∃ order, c.order = some order ∧
      ((∃ (K : ℝ) (N : ℕ), ∀ n : ℕ, N ≤ n →
        ∃ e, c.toQGenerator.errorDahlquist lam u0 tEnd n = .ok e ∧ e ≤ K / n ^ order) ↔
        order = M ∨ ∀ i, c.nodes i = (x i + 1) / 2) := by
  obtain ⟨order, ho, hiff⟩ := C28_order_iff (by norm_num) c hc x hx
  refine ⟨order, ho, ?_⟩
  rw [C29_convergence_iff c hc order lam u0 tEnd hlam hu0 htEnd, hiff]
  simp

/-! ## Many nodes -/

/-- The largest Gauss node is within `1 / M` of 1. -/
theorem gauss_last_node {M : ℕ} (hM : 0 < M) (x : Fin M → ℝ)
    (hx : getNodes ⟨"LEGENDRE", "GAUSS"⟩ M = .ok x) :
    1 - 1 / (2 * M : ℝ) ≤ (x ⟨M - 1, by omega⟩ + 1) / 2 := by
  classical
  obtain ⟨x'', hx'', hb⟩ := getNodes_all (nt := "LEGENDRE") (qt := "GAUSS") (by decide) (by decide)
    (validSize_of_getNodes hx)
  rw [hx] at hx''
  cases hx''
  have hinj : Function.Injective x := hb.1.injective
  set w : Fin M → ℝ := fun i => polyInt (Lagrange.basis Finset.univ x i) (-1) 1 with hw
  have hwex : ∀ q : ℝ[X], q.degree < M → QuadExact x w (-1) 1 q := by
    intro q hq
    have : q = ∑ i, C (q.eval (x i)) * Lagrange.basis Finset.univ x i := by
      have := Lagrange.eq_interpolate (s := Finset.univ) (v := x) hinj.injOn (f := q) (by simpa using hq)
      rw [Lagrange.interpolate_apply] at this
      exact this
    unfold QuadExact
    conv_rhs => rw [this]
    change _ = intL (-1) 1 _
    rw [map_sum]
    refine Finset.sum_congr rfl fun i _ => ?_
    have := polyInt_C_mul (q.eval (x i)) (Lagrange.basis Finset.univ x i) (-1) 1
    change _ = polyInt _ _ _
    rw [this, hw, mul_comm]
  have hex := quadExact_of_orth hwex (nodes_orth (nt := "LEGENDRE") (qt := "GAUSS") (by decide) x hx)
  have hbonus : nodeBonus "LEGENDRE" "GAUSS" M = M := by simp [nodeBonus, legBonus]
  rw [hbonus] at hex
  have hwpos : ∀ i, 0 ≤ w i := by
    intro i
    have h1 := hex (Lagrange.basis Finset.univ x i ^ 2) (by
      have h2 : (Lagrange.basis Finset.univ x i).natDegree = M - 1 := by
        rw [Lagrange.natDegree_basis hinj.injOn (Finset.mem_univ i)]; simp
      refine lt_of_le_of_lt degree_le_natDegree ?_
      rw [natDegree_pow, h2]
      exact_mod_cast (by omega : 2 * (M - 1) < M + M))
    rw [QuadExact, Finset.sum_eq_single i] at h1
    · rw [eval_pow, Lagrange.eval_basis_self hinj.injOn (Finset.mem_univ i), one_pow, mul_one] at h1
      rw [h1]
      refine intervalIntegral.integral_nonneg (by norm_num) fun t _ => ?_
      rw [eval_pow]; positivity
    · intro j _ hj
      rw [eval_pow, Lagrange.eval_basis_of_ne hj.symm (Finset.mem_univ j)]
      simp
    · simp
  set y := x ⟨M - 1, by omega⟩ with hy
  have hmax : ∀ i, x i ≤ y := fun i => hb.1.monotone (Fin.le_def.mpr (by
    change (i : ℕ) ≤ M - 1; omega))
  obtain ⟨m, rfl⟩ : ∃ m, M = m + 1 := ⟨M - 1, by omega⟩
  -- test polynomial `(y - X) (X + 1) ^ (2 m)`
  have hnon : 0 ≤ polyInt ((C y - X) * (X + C 1) ^ (2 * m)) (-1) 1 := by
    rw [← hex _ ?_]
    · refine Finset.sum_nonneg fun i _ => mul_nonneg (hwpos i) ?_
      simp only [eval_mul, eval_sub, eval_C, eval_X, eval_pow, eval_add]
      have h1 := hmax i
      have : (x i + 1) ^ (2 * m) = ((x i + 1) ^ m) ^ 2 := by rw [← pow_mul, mul_comm]
      rw [this]
      exact mul_nonneg (by linarith) (by positivity)
    · refine lt_of_le_of_lt degree_le_natDegree ?_
      have h1 : ((C y - X) * (X + C 1) ^ (2 * m) : ℝ[X]).natDegree ≤ 1 + 2 * m := by
        refine natDegree_mul_le.trans (Nat.add_le_add ?_ ?_)
        · refine (natDegree_sub_le _ _).trans ?_
          simp
        · refine natDegree_pow_le.trans ?_
          rw [natDegree_X_add_C, mul_one]
      exact_mod_cast (by omega : ((C y - X) * (X + C 1) ^ (2 * m) : ℝ[X]).natDegree < m + 1 + (m + 1))
  have hval : polyInt ((C y - X) * (X + C 1) ^ (2 * m)) (-1) 1 =
      (y + 1) * 2 ^ (2 * m + 1) / (2 * m + 1) - 2 ^ (2 * m + 2) / (2 * m + 2) := by
    have hd : ((C y - X) * (X + C 1) ^ (2 * m) : ℝ[X]) =
        derivative (C ((y + 1) / (2 * m + 1)) * (X + C 1) ^ (2 * m + 1) -
          C (1 / (2 * (m:ℝ) + 2)) * (X + C 1) ^ (2 * m + 2)) := by
      refine Polynomial.funext fun t => ?_
      simp only [derivative_sub, derivative_C_mul, derivative_pow, derivative_add, derivative_X, derivative_C,
        eval_sub, eval_mul, eval_C, eval_X, eval_pow, eval_add, add_zero, mul_one]
      have h1 : (2 * (m:ℝ) + 1) ≠ 0 := by positivity
      have h2 : (2 * (m:ℝ) + 2) ≠ 0 := by positivity
      push_cast
      rw [pow_succ]
      field_simp
      ring
    rw [hd, polyInt_derivative]
    simp only [eval_sub, eval_mul, eval_C, eval_X, eval_pow, eval_add]
    norm_num
    ring
  rw [hval] at hnon
  have h1 : (0:ℝ) < 2 * m + 1 := by positivity
  have h2 : (0:ℝ) < 2 * m + 2 := by positivity
  have h3 : (0:ℝ) < 2 ^ (2 * m + 1) := by positivity
  have h4 : (2:ℝ) ^ (2 * m + 2) = 2 * 2 ^ (2 * m + 1) := by rw [pow_succ (2:ℝ) (2 * m + 1)]; ring
  rw [h4, sub_nonneg, div_le_div_iff₀ h2 h1] at hnon
  have h5 : 2 * (2 * (m:ℝ) + 1) ≤ (y + 1) * (2 * m + 2) := by
    have : (2:ℝ) ^ (2 * m + 1) * (2 * (2 * (m:ℝ) + 1)) ≤ 2 ^ (2 * m + 1) * ((y + 1) * (2 * m + 2)) := by
      nlinarith
    exact le_of_mul_le_mul_left this h3
  have h6 : (1:ℝ) - 1 / (2 * ((m + 1 : ℕ) : ℝ)) = (2 * m + 1) / (2 * m + 2) := by
    push_cast
    field_simp
    ring
  rw [h6, div_le_div_iff₀ h2 (by norm_num)]
  linarith

/-- C29 (and C28) without the condition on the nodes is false on `[0, 1]` too: with 50000 `GAUSS` nodes or more
the last one is moved to 1, and the method does not converge with the returned order. -/
theorem C29_many_nodes_fails {M : ℕ} (hM : 50000 ≤ M) :
    ∃ c : Collocation M, Collocation.new M "LEGENDRE" "GAUSS" 0 1 = .ok c ∧ c.order = some (2 * M) ∧
      c.nodes ⟨M - 1, by omega⟩ = 1 ∧
      ∀ (lam u0 : ℂ) (tEnd : ℝ), lam ≠ 0 → u0 ≠ 0 → tEnd ≠ 0 →
        ¬ ∃ (K : ℝ) (N : ℕ), ∀ n : ℕ, N ≤ n →
          ∃ e, c.toQGenerator.errorDahlquist lam u0 tEnd n = .ok e ∧ e ≤ K / n ^ (2 * M) := by
  obtain ⟨c, hc⟩ := collocation_new_ok (M := M) (nt := "LEGENDRE") (qt := "GAUSS") (by decide)
    (by decide) ⟨by omega, fun h => by simp at h⟩ 0 1
  obtain ⟨x, hM0, h⟩ := collocation_spec hc
  obtain ⟨-, hxr, hxl, hxrr⟩ := h.base
  have hx := h.getNodes
  have hlast := gauss_last_node hM0 x hx
  have hMr : (50000:ℝ) ≤ M := by exact_mod_cast hM
  have hsmall : 1 / (2 * M : ℝ) ≤ 1 / 10 ^ 5 := by
    rw [div_le_div_iff₀ (by positivity) (by norm_num)]
    linarith
  have hne1 : x ⟨M - 1, by omega⟩ ≠ 1 := fun e => by simpa using hxrr.mp ⟨_, e⟩
  have hle1 := (hxr ⟨M - 1, by omega⟩).2
  have hnode : c.nodes ⟨M - 1, by omega⟩ = 1 := by
    rw [C24_nodes_exact (by omega) c hc x hx, if_neg (by simp; omega), if_pos]
    refine ⟨rfl, ?_⟩
    rw [abs_of_nonneg (by linarith), abs_of_nonneg (by linarith)]
    norm_num at hsmall hlast ⊢
    linarith
  obtain ⟨-, ho⟩ : "GAUSS" = "GAUSS" ∧ c.order = some (2 * M) := by
    rcases legendre_order c hc with h | h | h
    · exact h
    · simp at h
    · simp at h
  refine ⟨c, hc, ho, hnode, fun lam u0 tEnd hlam hu0 htEnd hconv => ?_⟩
  obtain ⟨order, ho', hiff⟩ := C29_legendre_iff c hc x hx lam u0 tEnd hlam hu0 htEnd
  rw [ho] at ho'
  cases ho'
  rcases hiff.mp hconv with h | h
  · omega
  · have := h ⟨M - 1, by omega⟩
    rw [hnode] at this
    exact hne1 (by linarith)

/-- The hypotheses of `C24_nodes_exact`, `C28_order_iff` and `C29_legendre_iff` are met by five Radau nodes on `[0, 1]`,
and the conclusion is the positive one. -/
example : ∃ c : Collocation 5, Collocation.new 5 "LEGENDRE" "RADAU-RIGHT" 0 1 = .ok c ∧ c.order = some 9 ∧
    ∀ p : ℝ[X], p.degree < (9 : ℕ) → ∑ j, c.weights j * p.eval (c.nodes j) = ∫ t in (0:ℝ)..1, p.eval t := by
  obtain ⟨c, hc⟩ := collocation_new_ok (M := 5) (nt := "LEGENDRE") (qt := "RADAU-RIGHT") (by decide)
    (by decide) ⟨by norm_num, fun h => by norm_num⟩ 0 1
  obtain ⟨order, ho, -, hex⟩ := C28_quadrature_order (M := 5) (a := 0) (b := 1) (by unfold Wide; norm_num) c hc
  have ho9 : c.order = some 9 := by
    rcases legendre_order c hc with h | h | h
    · simp at h
    · exact h.2
    · simp at h
  rw [ho9] at ho
  cases ho
  exact ⟨c, hc, ho9, hex⟩

/-- Instance of `C24_boundary_iff`, `C28_order_iff`, `C29_legendre_iff`: five Radau nodes. -/
example : ∃ (c : Collocation 5) (order : ℕ), Collocation.new 5 "LEGENDRE" "RADAU-RIGHT" 0 1 = .ok c ∧
    (∃ i, c.nodes i = 1) ∧ c.order = some order := by
  obtain ⟨c, hc⟩ := collocation_new_ok (M := 5) (nt := "LEGENDRE") (qt := "RADAU-RIGHT") (by decide)
    (by decide) ⟨by norm_num, fun _ => by norm_num⟩ 0 1
  obtain ⟨x, hM, h⟩ := collocation_spec hc
  obtain ⟨order, ho, -⟩ := C28_order_iff (by norm_num) c hc x h.getNodes
  obtain ⟨-, -, -⟩ := C29_legendre_iff c hc x h.getNodes Complex.I 1 2 Complex.I_ne_zero one_ne_zero two_ne_zero
  exact ⟨c, order, hc, (C24_boundary_iff (by norm_num) (by norm_num) c hc x h.getNodes).2.2 (Or.inl (Or.inl rfl)), ho⟩

/-- Instance of `C24_one_node`: one Gauss node in `[0, 1]`. -/
example : ∃ (c : Collocation 1) (x : Fin 1 → ℝ), Collocation.new 1 "LEGENDRE" "GAUSS" 0 1 = .ok c ∧
    getNodes ⟨"LEGENDRE", "GAUSS"⟩ 1 = .ok x ∧
    c.nodes 0 = if |1 - (if |0 - (0 + (1 - 0) * ((x 0 + 1) / 2))| ≤ 1 / 10 ^ 8 + 1 / 10 ^ 5 * |0 + (1 - 0) * ((x 0 + 1) / 2)|
        then 0 else 0 + (1 - 0) * ((x 0 + 1) / 2) : ℝ)| ≤ 1 / 10 ^ 8 + 1 / 10 ^ 5 *
        |(if |0 - (0 + (1 - 0) * ((x 0 + 1) / 2))| ≤ 1 / 10 ^ 8 + 1 / 10 ^ 5 * |0 + (1 - 0) * ((x 0 + 1) / 2)|
          then 0 else 0 + (1 - 0) * ((x 0 + 1) / 2) : ℝ)| then 1
      else if |0 - (0 + (1 - 0) * ((x 0 + 1) / 2))| ≤ 1 / 10 ^ 8 + 1 / 10 ^ 5 * |0 + (1 - 0) * ((x 0 + 1) / 2)|
        then 0 else 0 + (1 - 0) * ((x 0 + 1) / 2) := by
  obtain ⟨c, hc⟩ := collocation_new_ok (M := 1) (nt := "LEGENDRE") (qt := "GAUSS") (by decide)
    (by decide) ⟨by norm_num, fun h => by simp at h⟩ 0 1
  obtain ⟨x, hM, h⟩ := collocation_spec hc
  exact ⟨c, x, hc, h.getNodes, C24_one_node c hc x h.getNodes _ _ rfl rfl⟩

end QMat
