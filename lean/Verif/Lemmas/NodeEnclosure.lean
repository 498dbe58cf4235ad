import Verif.Lemmas.SDCArith

/-!
# Enclosures of the collocation nodes
-/

namespace QMat

open Polynomial Spec NodesGenerator

namespace SDCArith

/-- `alpha` of `getOrthogPolyCoefficients`. -/
def alphaQ (nt : String) (k : ℕ) : ℚ :=
  if nt = "CHEBY-3" then (if k = 0 then 1 / 2 else 0)
  else if nt = "CHEBY-4" then (if k = 0 then -1 / 2 else 0) else 0

/-- `beta` of `getOrthogPolyCoefficients`, except the first one, which does not matter. -/
def betaQ (nt : String) (k : ℕ) : ℚ :=
  if k = 0 then 0
  else if nt = "LEGENDRE" then (k:ℚ) ^ 2 / (4 * (k:ℚ) ^ 2 - 1)
  else if nt = "CHEBY-1" then (if k = 1 then 1 / 2 else 1 / 4)
  else 1 / 4

theorem alphaQ_cast (nt : String) (k : ℕ) : ((alphaQ nt k : ℚ) : ℝ) = baseAlpha nt k := by
  unfold alphaQ baseAlpha
  split_ifs <;> norm_num

theorem betaQ_cast (nt : String) {k : ℕ} (hk : k ≠ 0) : ((betaQ nt k : ℚ) : ℝ) = baseBeta nt k := by
  unfold betaQ baseBeta
  rw [if_neg hk]
  split_ifs with h1 h2 h3 <;> push_cast <;> norm_num

/-- Values of the polynomials `m` and `m - 1` of the recurrence. -/
def evalPair (nt : String) (t : ℚ) : ℕ → ℚ × ℚ
  | 0 => (1, 0)
  | m + 1 => match evalPair nt t m with
    | (p, q) => ((t - alphaQ nt m) * p - betaQ nt m * q, p)

theorem evalPair_cast (nt : String) (t : ℚ) (m : ℕ) :
    (((evalPair nt t m).1 : ℚ) : ℝ) = (orthPoly (baseAlpha nt) (baseBeta nt) m).eval (t:ℝ) ∧
    (((evalPair nt t m).2 : ℚ) : ℝ) = (prevPoly (baseAlpha nt) (baseBeta nt) m).eval (t:ℝ) := by
  induction m with
  | zero => simp [evalPair, orthPoly, prevPoly]
  | succ m ih =>
    obtain ⟨h1, h2⟩ := ih
    refine ⟨?_, h1⟩
    rw [orthPoly_step]
    simp only [evalPair, eval_sub, eval_mul, eval_X, eval_C]
    push_cast
    rw [h1, h2, alphaQ_cast]
    rcases Nat.eq_zero_or_pos m with rfl | hm
    · simp [prevPoly]
    · rw [betaQ_cast nt hm.ne']

/-- The last coefficients. -/
def lastQ (nt qt : String) (m : ℕ) : ℚ × ℚ :=
  if qt = "GAUSS" then (alphaQ nt m, betaQ nt m)
  else if qt = "RADAU-RIGHT" then
    (1 - betaQ nt m * (evalPair nt 1 m).2 / (evalPair nt 1 m).1, betaQ nt m)
  else if qt = "RADAU-LEFT" then
    (-1 - betaQ nt m * (evalPair nt (-1) m).2 / (evalPair nt (-1) m).1, betaQ nt m)
  else
    let (b1, b2) := evalPair nt 1 m
    let (a1, a2) := evalPair nt (-1) m
    let d := a1 * b2 - a2 * b1
    ((-a1 * b2 - a2 * b1) / d, (a1 * b1 + b1 * a1) / d)

/-- Value of the node polynomial. -/
def evalLast (nt : String) (m : ℕ) (ab : ℚ × ℚ) (t : ℚ) : ℚ :=
  match evalPair nt t m with
  | (p, q) => (t - ab.1) * p - ab.2 * q

theorem evalLast_cast (nt : String) (m : ℕ) (ab : ℚ × ℚ) (s : ℚ) : ((evalLast nt m ab s : ℚ) : ℝ) =
    (lastPoly (baseAlpha nt) (baseBeta nt) m ab.1 ab.2).eval (s:ℝ) := by
  obtain ⟨e1, e2⟩ := evalPair_cast nt s m
  rw [eval_lastPoly, ← e1, ← e2]
  simp only [evalLast]
  push_cast
  rfl

/-- The node polynomial has the coefficients `lastQ`. -/
theorem lastPoly_eq {nt qt : String} (hnt : nt ∈ ORTHO_TYPES) {m : ℕ} {a b : ℝ}
    (hlast : LastCoeffs (baseAlpha nt) (baseBeta nt) qt m a b)
    (hspec : LastSpec (baseAlpha nt) (baseBeta nt) m a b (qt = "LOBATTO" ∨ qt = "RADAU-LEFT")
        (qt = "LOBATTO" ∨ qt = "RADAU-RIGHT"))
    (hroot : qt = "LOBATTO" → evalLast nt m (lastQ nt qt m) 1 = 0 ∧
      evalLast nt m (lastQ nt qt m) (-1) = 0) :
    lastPoly (baseAlpha nt) (baseBeta nt) m a b =
      lastPoly (baseAlpha nt) (baseBeta nt) m (lastQ nt qt m).1 (lastQ nt qt m).2 := by
  have hev := evalLast_cast nt m
  have key : a = ((lastQ nt qt m).1 : ℚ) → (m ≠ 0 → b = ((lastQ nt qt m).2 : ℚ)) →
      lastPoly (baseAlpha nt) (baseBeta nt) m a b =
      lastPoly (baseAlpha nt) (baseBeta nt) m (lastQ nt qt m).1 (lastQ nt qt m).2 := by
    intro ha hb
    rw [ha]
    rcases Nat.eq_zero_or_pos m with rfl | hm
    · simp [lastPoly, prevPoly]
    · rw [hb hm.ne']
  obtain ⟨r1, r2⟩ := evalPair_cast nt 1 m
  obtain ⟨l1, l2⟩ := evalPair_cast nt (-1) m
  push_cast at r1 r2 l1 l2
  rcases hlast with ⟨rfl, rfl, rfl⟩ | ⟨rfl, rfl, rfl⟩ | ⟨rfl, rfl, rfl⟩ | ⟨rfl, hm, -⟩
  · exact key (by simp [lastQ, alphaQ_cast]) fun hm => by simp [lastQ, betaQ_cast nt hm]
  · refine key ?_ fun hm => by simp [lastQ, betaQ_cast nt hm]
    rw [radauRight, ← r1, ← r2]
    rcases Nat.eq_zero_or_pos m with rfl | hm
    · simp [lastQ, evalPair]
    · rw [← betaQ_cast nt hm.ne']
      simp [lastQ]
  · refine key ?_ fun hm => by simp [lastQ, betaQ_cast nt hm]
    rw [radauLeft, ← l1, ← l2]
    rcases Nat.eq_zero_or_pos m with rfl | hm
    · simp [lastQ, evalPair]
    · rw [← betaQ_cast nt hm.ne']
      simp [lastQ]
  · obtain ⟨h1, h2⟩ := hroot rfl
    have h1' := hev (lastQ nt "LOBATTO" m) 1
    have h2' := hev (lastQ nt "LOBATTO" m) (-1)
    rw [h1] at h1'
    rw [h2] at h2'
    push_cast at h1' h2'
    obtain ⟨ha, hb⟩ := lobatto_unique (family_base hnt) hm (hspec.atRight.mpr (Or.inl rfl))
      (hspec.atLeft.mpr (Or.inl rfl)) h1'.symm h2'.symm
    exact key ha fun _ => hb

section Generic

variable {α : Type}

/-- `evalPair` in another arithmetic. -/
def evalPairA (A : Arith α) (nt : String) (t : α) : ℕ → α × α
  | 0 => (A.ofRat 1, A.ofRat 0)
  | m + 1 => match evalPairA A nt t m with
    | (p, q) => (A.sub (A.mul (A.sub t (A.ofRat (alphaQ nt m))) p) (A.mul (A.ofRat (betaQ nt m)) q), p)

def evalLastA (A : Arith α) (nt : String) (m : ℕ) (ab : ℚ × ℚ) (t : α) : α :=
  match evalPairA A nt t m with
  | (p, q) => A.sub (A.mul (A.sub t (A.ofRat ab.1)) p) (A.mul (A.ofRat ab.2) q)

theorem evalLastA_rel {A : Arith α} {rel : α → ℝ → Prop} (hA : A.Sound rel) (nt : String) (m : ℕ)
    (ab : ℚ × ℚ) {t : α} {x : ℝ} (ht : rel t x) :
    rel (evalLastA A nt m ab t) ((lastPoly (baseAlpha nt) (baseBeta nt) m ab.1 ab.2).eval x) := by
  have key : ∀ m, rel (evalPairA A nt t m).1 ((orthPoly (baseAlpha nt) (baseBeta nt) m).eval x) ∧
      rel (evalPairA A nt t m).2 ((prevPoly (baseAlpha nt) (baseBeta nt) m).eval x) := by
    intro m
    induction m with
    | zero =>
      refine ⟨?_, ?_⟩
      · simpa [evalPairA, orthPoly] using hA.ofRat 1
      · simpa [evalPairA, prevPoly] using hA.ofRat 0
    | succ m ih =>
      refine ⟨?_, ih.1⟩
      rw [orthPoly_step]
      simp only [evalPairA, eval_sub, eval_mul, eval_X, eval_C]
      refine hA.sub (hA.mul (hA.sub ht ?_) ih.1) ?_
      · rw [← alphaQ_cast]; exact hA.ofRat _
      · rcases Nat.eq_zero_or_pos m with rfl | hm
        · have := hA.mul (hA.ofRat (betaQ nt 0)) ih.2
          simpa [prevPoly] using this
        · rw [← betaQ_cast nt hm.ne']
          exact hA.mul (hA.ofRat _) ih.2
  rw [eval_lastPoly]
  exact hA.sub (hA.mul (hA.sub ht (hA.ofRat _)) (key m).1) (hA.mul (hA.ofRat _) (key m).2)

end Generic

/-- Roots with sign changes in increasing intervals. -/
theorem roots_enclosed {M : ℕ} {x : Fin M → ℝ} (hx : StrictMono x) {P : ℝ[X]}
    (hP : Lagrange.nodal Finset.univ x = P) {l r : Fin M → ℝ} (hlr : ∀ i, l i ≤ r i)
    (hsep : ∀ i j, i < j → r i < l j) (hsign : ∀ i, P.eval (l i) * P.eval (r i) ≤ 0) (i : Fin M) :
    l i ≤ x i ∧ x i ≤ r i := by
  have hroot : ∀ i, ∃ t, l i ≤ t ∧ t ≤ r i ∧ P.eval t = 0 := by
    intro i
    have hc : ContinuousOn (fun t => P.eval t) (Set.uIcc (l i) (r i)) := P.continuous.continuousOn
    have h0 : (0:ℝ) ∈ Set.uIcc (P.eval (l i)) (P.eval (r i)) := by
      rw [Set.mem_uIcc]
      rcases mul_nonpos_iff.mp (hsign i) with h | h
      · exact Or.inr ⟨h.2, h.1⟩
      · exact Or.inl ⟨h.1, h.2⟩
    obtain ⟨t, ht, ht0⟩ := intermediate_value_uIcc hc h0
    rw [Set.uIcc_of_le (hlr i)] at ht
    exact ⟨t, ht.1, ht.2, ht0⟩
  choose y hy1 hy2 hy0 using hroot
  have hex : ∀ i, ∃ j, x j = y i := fun i => (eval_nodal_eq_zero_iff x _).mp (by rw [hP]; exact hy0 i)
  choose s hs using hex
  have hmono : StrictMono s := by
    intro i j hij
    rw [← hx.lt_iff_lt, hs, hs]
    exact lt_of_le_of_lt (hy2 i) (lt_of_lt_of_le (hsep i j hij) (hy1 j))
  have hid : s i = i := by
    have := congrFun (Subsingleton.elim (hmono.orderIsoOfSurjective s
      (Finite.surjective_of_injective hmono.injective)) (OrderIso.refl _) |> congrArg DFunLike.coe) i
    simpa using this
  rw [← hid, hs, hid]
  exact ⟨hy1 i, hy2 i⟩

end SDCArith

end QMat
