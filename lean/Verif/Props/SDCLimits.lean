import Verif.Lemmas.SDCLimits
import Verif.Props.Algebraic
import Verif.Props.OrderSDC

/-!
# C62: SDC with nilpotent QDelta approximations
-/

namespace QMat

open Matrix Spec

variable {M : ℕ} {nt qt : String}

/-- `K` sweeps with the matrices `f` reduce the distance to the collocation solution by a factor
`O(|z|^q)` for `z → 0`. -/
def NonStiffRate (Q : Matrix (Fin M) (Fin M) ℝ) (f : ℕ → Matrix (Fin M) (Fin M) ℝ) (K q : ℕ) : Prop :=
  ∃ C δ : ℝ, 0 < δ ∧ ∀ z : ℂ, ‖z‖ ≤ δ → ∀ u U v, SDCIterates z Q f K u U → IsCollocationSolution z Q u v →
    ‖U K - v‖ ≤ C * ‖z‖ ^ q * ‖U 0 - v‖

/-- `K` sweeps with the matrices `f` are defined for all large `z` and reduce the distance to the
collocation solution by a factor `O(1/|z|)`. -/
def StiffRate (Q : Matrix (Fin M) (Fin M) ℝ) (f : ℕ → Matrix (Fin M) (Fin M) ℝ) (K : ℕ) : Prop :=
  ∃ C R : ℝ, 0 < R ∧ ∀ z : ℂ, R ≤ ‖z‖ → (∀ k < K, (1 - z • cmat (f k)).det ≠ 0) ∧
    ∀ u U v, SDCIterates z Q f K u U → IsCollocationSolution z Q u v →
      ‖U K - v‖ ≤ C / ‖z‖ * ‖U 0 - v‖

/-! ## Non-stiff limit -/

/-- C62: every sweep gains a factor `z`; one more is gained when the product of the `Q - QΔ` vanishes. -/
theorem C62_nonstiff (Q : Matrix (Fin M) (Fin M) ℝ) (f : ℕ → Matrix (Fin M) (Fin M) ℝ) (K : ℕ) :
    NonStiffRate Q f K K ∧
    ((List.range K).foldl (fun P k => (Q - f k) * P) 1 = 0 → NonStiffRate Q f K (K + 1)) := by
  obtain ⟨C, δ, hC, hδ, h⟩ := nonstiff_expansion Q f K
  have hprod : ∀ n, (List.range n).foldl (fun P k => (Q - f k) * P) 1 = sweepProd Q f n := by
    intro n
    induction n with
    | zero => rfl
    | succ n ih => rw [List.range_succ, List.foldl_append, ih]; rfl
  refine ⟨⟨C, δ, hδ, fun z hz u U v hU hv => ?_⟩, fun h0 => ⟨C, δ, hδ, fun z hz u U v hU hv => ?_⟩⟩
  · exact (h z hz (fun k => U k - v) fun k hk => C56_error_recursion z Q f K u U hU v hv k hk).1
  · have := (h z hz (fun k => U k - v) fun k hk => C56_error_recursion z Q f K u U hU v hv k hk).2
    rwa [cmat_mulVec_eq_zero ((hprod K).symm.trans h0), smul_zero, sub_zero] at this

/-- Instance: two sweeps with the exact matrix in the second. -/
example (Q A : Matrix (Fin M) (Fin M) ℝ) : NonStiffRate Q (fun k => if k = 1 then Q else A) 2 3 :=
  (C62_nonstiff Q (fun k => if k = 1 then Q else A) 2).2 (by simp [List.range_succ])

theorem foldl_const_pow (N : Matrix (Fin M) (Fin M) ℝ) (n : ℕ) :
    (List.range n).foldl (fun P _ => N * P) 1 = N ^ n := by
  induction n with
  | zero => rfl
  | succ n ih => rw [List.range_succ, List.foldl_append, ih, pow_succ']; rfl

theorem sdcDefect_const (Q A : Matrix (Fin M) (Fin M) ℝ) (K : ℕ) :
    sdcDefect Q (fun _ => A) K = ((Q - A) ^ K) *ᵥ (Q *ᵥ fun _ => 1) := by
  induction K with
  | zero => simp [sdcDefect]
  | succ K ih => rw [sdcDefect, ih, Matrix.mulVec_mulVec, pow_succ']

/-- C62: `MIN-SR-NS` for any collocation on `[0, b]` and at least `M` sweeps: the distance to the
collocation solution is `O(|z|^(K+1))`, one power more than for a general `QΔ`, and (on `[0, 1]`) SDC has one
order more than in C60, as long as the order of the collocation allows. -/
theorem C62_minsrns (ext : ExternalNum) {b : ℝ} (hb : 0 < b) (c : Collocation M)
    (hc : Collocation.new M nt qt 0 b = .ok c) (K : ℕ) (hK : M ≤ K) :
    ∃ A : Matrix (Fin M) (Fin M) ℝ, getQD ext "MIN-SR-NS" (kwColl c) none = .ok ⟨M, A⟩ ∧
      NonStiffRate c.Q (fun _ => A) K (K + 1) ∧
      ∀ order, LinearOrder c.Q c.weights order →
        SDCConverges c.Q (.mat M M A) K (some c.weights) (min order (K + 2)) := by
  obtain ⟨A, hA, hN⟩ := C45_minsrns_nilpotent ext hb c hc none
  have hNK : (c.Q - A) ^ K = 0 := pow_eq_zero_of_le hK hN
  refine ⟨A, hA, (C62_nonstiff c.Q _ K).2 ?_, fun order ho => ?_⟩
  · rw [foldl_const_pow, hNK]
  · refine ((C60_one_order_per_sweep c.Q _ K _ (.same K A)).1 c.weights order ho).2.1 ?_
    rw [sdcDefect_const, hNK, Matrix.zero_mulVec, dotProduct_zero]

/-- C62: and with the last node value, when it is the end of the interval. -/
theorem C62_minsrns_lastnode (ext : ExternalNum) {b : ℝ} (hb : 0 < b) (hM : 0 < M) (c : Collocation M)
    (hc : Collocation.new M nt qt 0 b = .ok c) (K : ℕ) (hK : M ≤ K) (order : ℕ)
    (ho : LinearOrder c.Q (c.Q ⟨M - 1, by omega⟩) order) :
    ∃ A : Matrix (Fin M) (Fin M) ℝ, getQD ext "MIN-SR-NS" (kwColl c) none = .ok ⟨M, A⟩ ∧
      SDCConverges c.Q (.mat M M A) K none (min order (K + 1)) := by
  obtain ⟨A, hA, hN⟩ := C45_minsrns_nilpotent ext hb c hc none
  refine ⟨A, hA, ((C60_one_order_per_sweep c.Q _ K _ (.same K A)).2 hM order ho).2.1 ?_⟩
  rw [sdcDefect_const, pow_eq_zero_of_le hK hN, Matrix.zero_mulVec]
  rfl

/-- C62, instance: three Gauss-Radau nodes, collocation of order 5: three sweeps of `MIN-SR-NS` already have
order 5 (C60 gives 4), and 4 with the last node value (C60 gives 3). -/
example (ext : ExternalNum) : ∃ (c : Collocation 3) (A : Matrix (Fin 3) (Fin 3) ℝ),
    Collocation.new 3 "LEGENDRE" "RADAU-RIGHT" 0 1 = .ok c ∧
    getQD ext "MIN-SR-NS" (kwColl c) none = .ok ⟨3, A⟩ ∧
    SDCConverges c.Q (.mat 3 3 A) 3 (some c.weights) 5 := by
  obtain ⟨c, hc⟩ := collocation_new_ok (M := 3) (nt := "LEGENDRE") (qt := "RADAU-RIGHT") (by decide)
    (by decide) ⟨by decide, by decide⟩ 0 1
  obtain ⟨A, hA, -, h⟩ := C62_minsrns ext one_pos c hc 3 le_rfl
  have ho5 : c.order = some 5 := by
    unfold Collocation.order
    rw [(coll_types hc).1, (coll_types hc).2]
    decide
  have hw : Wide 3 0 1 := by
    unfold Wide
    norm_num
  obtain ⟨order, ho, -, hex⟩ := C28_quadrature_order hw c hc
  obtain rfl : order = 5 := by rw [ho5] at ho; simpa using ho.symm
  exact ⟨c, A, hc, hA, h 5 (collocation_order_conditions c hc hex)⟩

/-! ## Stiff limit -/

theorem stiffRate_of {x : Fin M → ℝ} {Q : Matrix (Fin M) (Fin M) ℝ} (hQ : nodeProj x * Q = Q)
    {f : ℕ → Matrix (Fin M) (Fin M) ℝ} (hf : ∀ k, StiffRegular x (f k)) (K : ℕ)
    (hst : ∀ e, StiffErrors x Q f e → e K = 0) : StiffRate Q f K := by
  obtain ⟨C, R, hR, h⟩ := stiff_limit hQ hf K hst
  refine ⟨C, R, hR, fun z hz => ⟨(h z hz).1, fun u U v hU hv => ?_⟩⟩
  refine (h z hz).2 (fun k => U k - v) (fun i hi => ?_) fun k hk =>
    C56_error_recursion z Q f K u U hU v hv k hk
  have h1 : v i = u + z * (cmat Q *ᵥ v) i := by
    have := congrFun hv i
    rw [Matrix.smul_mulVec] at this
    simpa using this
  have h2 : (cmat Q *ᵥ v) i = 0 := by
    have h3 : ∀ j, Q i j = 0 := fun j => by
      rw [← hQ, nodeProj, Matrix.diagonal_mul, if_pos hi, zero_mul]
    change ∑ j, (Q i j : ℂ) * v j = 0
    simp [h3]
  have h0 : U 0 i = u := congrFun hU.copy i
  change U 0 i - v i = 0
  rw [h0, h1, h2]
  simp

theorem collocation_zero_rows {x : Fin M → ℝ} {Q : Matrix (Fin M) (Fin M) ℝ}
    (hx : Function.Injective x) (hQ : IntegratesMonomials x Q) : nodeProj x * Q = Q := by
  ext i j
  rw [nodeProj, Matrix.diagonal_mul]
  split_ifs with hi
  · obtain ⟨a, ha⟩ := exists_monomial_coeffs hx (Pi.single j 1)
    have h1 : (Q *ᵥ Pi.single j 1) i = Q i j := by rw [Matrix.mulVec_single_one]; rfl
    have h2 : (Pi.single j 1 : Fin M → ℝ) = ∑ l : Fin M, a l • fun i => x i ^ (l : ℕ) := by
      funext k
      rw [ha k, Finset.sum_apply]
      rfl
    have h3 : (Q *ᵥ Pi.single j 1) i = 0 := by
      rw [h2, Matrix.mulVec_sum, Finset.sum_apply]
      refine Finset.sum_eq_zero fun l _ => ?_
      rw [Matrix.mulVec_smul, Pi.smul_apply, hQ l l.2 i, hi]
      simp
    rw [zero_mul, ← h1, h3]
  · rw [one_mul]

theorem stiffRegular_diagonal {x d : Fin M → ℝ} (h : ∀ i, d i = 0 ↔ x i = 0) :
    StiffRegular x (Matrix.diagonal d) := by
  refine ⟨?_, Matrix.diagonal fun i => (d i)⁻¹, ?_, ?_, ?_⟩
  all_goals
    rw [nodeProj]
    try rw [Matrix.diagonal_mul_diagonal]
    congr 1
    funext i
    by_cases hx : x i = 0
    · simp [hx, (h i).mpr hx]
    · have hd : d i ≠ 0 := fun e => hx ((h i).mp e)
      simp [hx, hd]

theorem nodeProj_one {x : Fin M → ℝ} (h : ∀ i, x i ≠ 0) : nodeProj x = 1 := by
  rw [nodeProj, ← Matrix.diagonal_one]
  congr 1
  funext i
  rw [if_neg (h i)]

theorem stiffRegular_inv {x : Fin M → ℝ} (h : ∀ i, x i ≠ 0) {A : Matrix (Fin M) (Fin M) ℝ}
    (hA : A.det ≠ 0) : StiffRegular x A := by
  have hu := isUnit_iff_ne_zero.mpr hA
  rw [StiffRegular, nodeProj_one h]
  exact ⟨one_mul _, A⁻¹, Matrix.mul_nonsing_inv _ hu, Matrix.nonsing_inv_mul _ hu, one_mul _⟩

/-- C62: `MIN-SR-FLEX` for any collocation on `[0, 1]`: the `M` matrices of sweeps `1, ..., M` reduce the
distance to the collocation solution by a factor `O(1/|z|)` in the stiff limit. -/
theorem C62_flex (ext : ExternalNum) (c : Collocation M) (hc : Collocation.new M nt qt = .ok c) :
    ∃ As : ℕ → Matrix (Fin M) (Fin M) ℝ,
      (∀ k < M, getQD ext "MIN-SR-FLEX" (kwColl c) (some (k + 1 : ℕ)) = .ok ⟨M, As k⟩) ∧
      StiffRate c.Q As M := by
  obtain ⟨hx, hQ⟩ := coll_monomials one_pos hc
  refine ⟨fun k => Matrix.diagonal fun i => c.nodes i / (k + 1 : ℕ), fun k hk => ?_, ?_⟩
  · exact_mod_cast (C48_flex ext c hc (k + 1 : ℕ) (by exact_mod_cast Nat.le_add_left 1 k)
      (by exact_mod_cast hk)).1
  · refine stiffRate_of (collocation_zero_rows hx hQ) (fun k => stiffRegular_diagonal fun i => ?_) M
      fun e he => ?_
    · have : ((k + 1 : ℕ) : ℝ) ≠ 0 := by positivity
      rw [div_eq_zero_iff]
      tauto
    · refine flex_annihilates hx hQ e he.1 fun k _ i => ?_
      have := congrFun (he.2 k) i
      rw [Pi.sub_apply, Matrix.mulVec_diagonal, Matrix.mulVec_diagonal] at this
      exact this

/-- A constant `QΔ` with nilpotent `1 - QΔ⁻¹ Q`. -/
theorem stiffRate_nilpotent {Q A : Matrix (Fin M) (Fin M) ℝ} (hA : A.det ≠ 0) (K : ℕ)
    (h : (1 - A⁻¹ * Q) ^ K = 0) : StiffRate Q (fun _ => A) K := by
  have hx : ∀ i : Fin M, (fun _ => (1:ℝ)) i ≠ 0 := fun _ => one_ne_zero
  refine stiffRate_of (x := fun _ => 1) (by rw [nodeProj_one hx, one_mul])
    (fun _ => stiffRegular_inv hx hA) K fun e he => ?_
  have hu := isUnit_iff_ne_zero.mpr hA
  have step : ∀ k, e (k + 1) = (1 - A⁻¹ * Q) *ᵥ e k := fun k => by
    have h2 := congrArg (fun v => A⁻¹ *ᵥ v) (he.2 k)
    simp only [Matrix.mulVec_sub, Matrix.mulVec_mulVec, Matrix.nonsing_inv_mul _ hu,
      Matrix.one_mulVec] at h2
    rw [h2, Matrix.sub_mulVec, Matrix.one_mulVec]
  have hpow : ∀ k, e k = (1 - A⁻¹ * Q) ^ k *ᵥ e 0 := by
    intro k
    induction k with
    | zero => simp
    | succ k ih => rw [step, ih, Matrix.mulVec_mulVec, pow_succ']
  rw [hpow, h, Matrix.zero_mulVec]

/-- C62: `LU`, for any invertible `Q` whose transpose is factorized without row exchanges. -/
theorem C62_lu (ext : ExternalNum) (Q : Matrix (Fin M) (Fin M) ℝ)
    (hlu : IsPLU Qᵀ (ext.lu Qᵀ).1 (ext.lu Qᵀ).2.1 (ext.lu Qᵀ).2.2) (hP : (ext.lu Qᵀ).1 = 1)
    (hdet : Q.det ≠ 0) : StiffRate Q (fun _ => computeLU ext Q) M := by
  obtain ⟨-, ⟨N, -, hN⟩, h⟩ := C44_lu_nilpotent ext Q hlu hP
  refine stiffRate_nilpotent (fun h0 => hdet ?_) M (h hdet)
  rw [hN, Matrix.det_mul, h0, zero_mul]

/-- C62: `MIN-SR-S`, when `fsolve` finds roots (see C47). -/
theorem C62_minsrs (ext : ExternalNum) (c : Collocation M)
    (hc : Collocation.new M nt qt = .ok c) (hqt : qt = "GAUSS" ∨ qt = "RADAU-RIGHT")
    (h0 : ∀ i, c.nodes i ≠ 0)
    (hsolve : 2 ≤ M → ∀ x0, (∀ i, ext.fsolve (StiffSystem c.Q c.nodes) x0 i ≠ 0) ∧
      StiffSystem c.Q c.nodes (ext.fsolve (StiffSystem c.Q c.nodes) x0) = 0) :
    ∃ A : Matrix (Fin M) (Fin M) ℝ, getQD ext "MIN-SR-S" (kwColl c) none = .ok ⟨M, A⟩ ∧
      StiffRate c.Q (fun _ => A) M := by
  obtain ⟨d, hd, hd0, h⟩ := C47_minsrs_nilpotent ext c hc hqt h0 hsolve none
  refine ⟨_, hd, stiffRate_nilpotent ?_ M h⟩
  rw [Matrix.det_diagonal, Finset.prod_ne_zero_iff]
  exact fun i _ => hd0 i

/-- Instance: two nodes, with a root finder that finds the roots. -/
example : ∃ (ext : ExternalNum) (c : Collocation 2) (A : Matrix (Fin 2) (Fin 2) ℝ),
    Collocation.new 2 "EQUID" "RADAU-RIGHT" = .ok c ∧ getQD ext "MIN-SR-S" (kwColl c) none = .ok ⟨2, A⟩ ∧
    StiffRate c.Q (fun _ => A) 2 := by
  obtain ⟨ext, c, hc, h0, h⟩ := minsrs_example
  obtain ⟨A, hA⟩ := C62_minsrs ext c hc (Or.inr rfl) h0 (fun _ => h)
  exact ⟨ext, c, A, hc, hA⟩

/-- C62: `MIN-SR-S` when the first node is zero: one sweep less is needed. -/
theorem C62_minsrs_left {m : ℕ} (ext : ExternalNum) (c : Collocation (m + 1))
    (hc : Collocation.new (m + 1) nt qt = .ok c) (hqt : qt = "RADAU-LEFT" ∨ qt = "LOBATTO")
    (hsolve : 2 ≤ m → ∀ x0,
      (∀ i, ext.fsolve (StiffSystem (c.Q.submatrix Fin.succ Fin.succ) (c.nodes ∘ Fin.succ)) x0 i ≠ 0) ∧
      StiffSystem (c.Q.submatrix Fin.succ Fin.succ) (c.nodes ∘ Fin.succ)
        (ext.fsolve (StiffSystem (c.Q.submatrix Fin.succ Fin.succ) (c.nodes ∘ Fin.succ)) x0) = 0) :
    ∃ A : Matrix (Fin (m + 1)) (Fin (m + 1)) ℝ,
      getQD ext "MIN-SR-S" (kwColl c) none = .ok ⟨m + 1, A⟩ ∧ StiffRate c.Q (fun _ => A) m := by
  obtain ⟨hx, hQ⟩ := coll_monomials one_pos hc
  obtain ⟨d, hd, hd0, -, h⟩ := C47_minsrs_nilpotent_left ext c hc hqt hsolve none
  have hn0 : c.nodes 0 = 0 := by
    obtain ⟨hmono, hin, hl, -⟩ := C24_collocation_nodes one_pos c hc
    obtain ⟨i, hi⟩ := hl hqt
    exact le_antisymm (hi ▸ hmono.monotone (Fin.zero_le i)) (hin 0).1
  refine ⟨_, hd, stiffRate_of (collocation_zero_rows hx hQ) (fun _ => stiffRegular_diagonal fun i => ?_) m h⟩
  refine Fin.cases ?_ (fun i => ?_) i
  · simp [hn0]
  · simp only [Fin.cons_succ]
    refine ⟨fun e => absurd e (hd0 i), fun e => ?_⟩
    exact absurd (hx (e.trans hn0.symm)) (Fin.succ_ne_zero i)

/-- C62, instance: `LOBATTO` nodes contain a zero node. -/
example (ext : ExternalNum) : ∃ (c : Collocation 4) (As : ℕ → Matrix (Fin 4) (Fin 4) ℝ),
    Collocation.new 4 "LEGENDRE" "LOBATTO" = .ok c ∧
    (∀ k < 4, getQD ext "MIN-SR-FLEX" (kwColl c) (some (k + 1 : ℕ)) = .ok ⟨4, As k⟩) ∧
    StiffRate c.Q As 4 := by
  obtain ⟨c, hc⟩ := collocation_new_ok (M := 4) (nt := "LEGENDRE") (qt := "LOBATTO") (by decide)
    (by decide) ⟨by decide, by decide⟩ 0 1
  obtain ⟨As, h⟩ := C62_flex ext c hc
  exact ⟨c, As, hc, h⟩

/-- C62, instance: `LU` for the two Gauss-Radau nodes. -/
example : ∃ ext : ExternalNum, StiffRate (!![5 / 12, -1 / 12; 3 / 4, 1 / 4] : Matrix (Fin 2) (Fin 2) ℝ)
    (fun _ => computeLU ext !![5 / 12, -1 / 12; 3 / 4, 1 / 4]) 2 := by
  let L : Matrix (Fin 2) (Fin 2) ℝ := !![1, 0; -1 / 5, 1]
  let U : Matrix (Fin 2) (Fin 2) ℝ := !![5 / 12, 3 / 4; 0, 2 / 5]
  let ext : ExternalNum := { trivialExt with lu := fun {n} A => if h : n = 2 then h ▸ (1, L, U) else (1, 1, A) }
  have hext : ∀ A : Matrix (Fin 2) (Fin 2) ℝ, ext.lu A = (1, L, U) := fun A => rfl
  refine ⟨ext, C62_lu ext _ ?_ (by rw [hext]) (by norm_num [Matrix.det_fin_two])⟩
  rw [hext]
  refine ⟨⟨1, fun i j => by fin_cases i <;> fin_cases j <;> simp⟩, ?_, ?_, ?_, ?_⟩
  · intro i; fin_cases i <;> simp [L]
  · intro i j; fin_cases i <;> fin_cases j <;> simp [L]
  · intro i j; fin_cases i <;> fin_cases j <;> simp [U]
  · ext i j
    fin_cases i <;> fin_cases j <;> norm_num [L, U, Matrix.mul_apply, Fin.sum_univ_two]

/-- The property is not met by every `QΔ`: Picard sweeps (`QΔ = 0`) increase the distance by `|z|`. -/
example : ¬ StiffRate (!![1] : Matrix (Fin 1) (Fin 1) ℝ) (fun _ => 0) 1 := by
  rintro ⟨C, R, hR, h⟩
  set r : ℝ := max R (max C 2) with hr
  have hr2 : 2 ≤ r := (le_max_right _ _).trans (le_max_right _ _)
  have hrC : C ≤ r := (le_max_left _ _).trans (le_max_right _ _)
  have hr0 : 0 < r := by linarith
  have hnorm : ‖(r : ℂ)‖ = r := by rw [Complex.norm_real, Real.norm_of_nonneg hr0.le]
  have key := (h r (by rw [hnorm]; exact le_max_left _ _)).2 (1 - r)
    (fun k _ => if k = 0 then 1 - r else (1 - r) + r * (1 - r)) (fun _ => 1)
    ⟨by simp, by
      intro k hk
      obtain rfl : k = 0 := by omega
      funext i
      rw [Subsingleton.elim i 0]
      simp [Matrix.mulVec, dotProduct]⟩
    (by
      funext i
      simp [Matrix.mulVec, dotProduct])
  have e1 : ((fun _ => if (1:ℕ) = 0 then 1 - (r:ℂ) else (1 - r) + r * (1 - r)) - (fun _ => 1) : Fin 1 → ℂ) =
      fun _ => ((-(r ^ 2) : ℝ) : ℂ) := by
    funext i
    simp
    ring
  have e0 : ((fun _ => if (0:ℕ) = 0 then 1 - (r:ℂ) else (1 - r) + r * (1 - r)) - (fun _ => 1) : Fin 1 → ℂ) =
      fun _ => ((-r : ℝ) : ℂ) := by
    funext i
    simp
  rw [e1, e0, pi_norm_const, pi_norm_const, hnorm, Complex.norm_real, Complex.norm_real, Real.norm_eq_abs,
    Real.norm_eq_abs, abs_neg, abs_neg, abs_of_pos hr0, abs_of_pos (by positivity)] at key
  have : C / r * r = C := by field_simp
  nlinarith

end QMat
