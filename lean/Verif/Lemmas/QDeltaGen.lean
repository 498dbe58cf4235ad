import Verif.Model.QDeltaGen
import Verif.Lemmas.LDU
import Verif.Lemmas.TimeStep
import Verif.Props.Params

/-!
# Lemmas on the registered `QDelta` classes
-/

namespace QMat

open Matrix

/-- `QDELTA_GENERATORS[name](**params)`. -/
noncomputable def makeQD (ext : ExternalNum) (name : String) (params : PyDict PyVal) :
    PyResult QDeltaGen := do
  let C ← lookupQDelta ext name
  C.call [] params

/-- `QDELTA_GENERATORS[name](**params).getQDelta(k)`, with its size. -/
noncomputable def getQD (ext : ExternalNum) (name : String) (params : PyDict PyVal) (k : Option ℤ) :
    PyResult (Σ n, Matrix (Fin n) (Fin n) ℝ) := do
  let g ← makeQD ext name params
  let A ← g.getQDelta k
  return ⟨g.size, A⟩

theorem bind_ok {α β : Type} {x : PyResult α} {f : α → PyResult β} {b : β}
    (h : x >>= f = .ok b) : ∃ a, x = .ok a ∧ f a = .ok b := by
  cases x with
  | error e => cases h
  | ok a => exact ⟨a, rfl, h⟩

theorem makeQD_ok {ext : ExternalNum} {name : String} {params : PyDict PyVal} {g : QDeltaGen}
    (h : makeQD ext name params = .ok g) :
    ∃ c ∈ qDeltaClasses ext, (name = c.name ∨ name ∈ c.aliases) ∧
      ∃ d, useQGen PyVal.isNone c.pNames c.extract [] params = .ok d ∧ c.init d = .ok g := by
  obtain ⟨c, hc, h⟩ := bind_ok h
  obtain ⟨d, hd, h⟩ := bind_ok h
  unfold lookupQDelta at hc
  cases hf : QDELTA_GENERATORS ext name with
  | none => rw [hf] at hc; cases hc
  | some c' =>
    rw [hf] at hc
    cases hc
    refine ⟨c, List.mem_of_find?_eq_some hf, ?_, d, hd, h⟩
    simpa using List.find?_some hf

/-- A keyword argument given explicitly reaches the constructor; one that is absent is taken from
`qGen`. -/
theorem useQGen_kw {pNames : List String} {extract : PyVal → PyResult (PyDict PyVal)}
    {params d : PyDict PyVal} (h : useQGen PyVal.isNone pNames extract [] params = .ok d)
    {n : String} (h1 : n ≠ "qGen") (h2 : n ≠ "coll") :
    d n = params n ∨ params n = none ∧ ∃ q e, extract q = .ok e ∧ d n = e n := by
  cases hc : params "coll" with
  | none =>
    cases hq : params "qGen" with
    | none =>
      obtain ⟨d', hd', hn, -⟩ := C55_without_qGen PyVal.isNone pNames extract [] params hc
        (by simp [hq])
      rw [h] at hd'
      cases hd'
      rw [hn n h1, dictZip_nil]
      simp
    | some q =>
      cases hN : q.isNone with
      | true =>
        obtain ⟨d', hd', hn, -⟩ := C55_without_qGen PyVal.isNone pNames extract [] params hc
          (fun q' hq' => by rw [hq] at hq'; cases hq'; exact hN)
        rw [h] at hd'
        cases hd'
        rw [hn n h1, dictZip_nil]
        simp
      | false =>
        cases he : extract q with
        | error e =>
          rw [(C55_errors PyVal.isNone pNames extract [] params).2 q e hc hq hN he] at h
          cases h
        | ok e =>
          obtain ⟨d', hd', hn, -⟩ := C55_with_qGen PyVal.isNone pNames extract [] params q e hN he
            (Or.inl ⟨hq, hc⟩)
          rw [h] at hd'
          cases hd'
          rw [hn n h1 h2, dictZip_nil]
          cases hp : params n with
          | none => exact Or.inr ⟨rfl, q, e, he, by simp⟩
          | some v => simp
  | some q =>
    cases hq : params "qGen" with
    | some q' =>
      rw [(C55_errors PyVal.isNone pNames extract [] params).1 q q' hc hq] at h
      cases h
    | none =>
      cases hN : q.isNone with
      | true =>
        left
        simp only [useQGen, hc, hq, bind, Except.bind, pure, Except.pure, Option.isSome_none,
          Bool.false_eq_true, if_false, if_true, hN] at h
        cases h
        simp [PyDict.update, PyDict.erase, h1, h2, dictZip_nil]
      | false =>
        cases he : extract q with
        | error e =>
          simp only [useQGen, hc, hq, bind, Except.bind, pure, Except.pure, Option.isSome_none,
            Bool.false_eq_true, if_false, if_true, hN, he] at h
          cases h
        | ok e =>
          obtain ⟨d', hd', hn, -⟩ := C55_with_qGen PyVal.isNone pNames extract [] params q e hN he
            (Or.inr ⟨hq, hc⟩)
          rw [h] at hd'
          cases hd'
          rw [hn n h1 h2, dictZip_nil]
          cases hp : params n with
          | none => exact Or.inr ⟨rfl, q, e, he, by simp⟩
          | some v => simp

/-! ## What the constructors build -/

theorem classQ_init {name : String} {aliases : List String}
    {compute : {M : ℕ} → Matrix (Fin M) (Fin M) ℝ → PyResult (Matrix (Fin M) (Fin M) ℝ)}
    {d : PyDict PyVal} {g : QDeltaGen} (h : (classQ name aliases compute).init d = .ok g) :
    ∃ (n : ℕ) (Q : Matrix (Fin n) (Fin n) ℝ), d "Q" = some (.matrix n Q) ∧
      g = { size := n, kDependent := false, compute := fun _ => compute Q,
            shared := fun _ => false, dTau := 0 } := by
  obtain ⟨q, hq, h⟩ := bind_ok h
  cases h
  unfold paramQ at hq
  split at hq
  · cases hq
  · rename_i n A hd
    cases hq
    exact ⟨n, A, hd, rfl⟩
  · cases hq

theorem classNodes_init {name : String} {aliases : List String} {kd : Bool}
    {compute : {M : ℕ} → (Fin M → ℝ) → Option ℤ → PyResult (Matrix (Fin M) (Fin M) ℝ)}
    {d : PyDict PyVal} {g : QDeltaGen} (h : (classNodes name aliases kd compute).init d = .ok g) :
    ∃ (n : ℕ) (v : Fin n → ℝ), d "nodes" = some (.array n v) ∧
      g = { size := n, kDependent := kd, compute := compute v,
            shared := fun _ => false, dTau := 0 } := by
  obtain ⟨q, hq, h⟩ := bind_ok h
  cases h
  unfold paramNodes at hq
  split at hq
  · cases hq
  · rename_i n A hd
    cases hq
    exact ⟨n, A, hd, rfl⟩
  · cases hq

theorem classTime_init {name : String} {aliases : List String}
    {compute : {M : ℕ} → TimeStepping M → PyResult (Matrix (Fin M) (Fin M) ℝ)}
    {dTau : {M : ℕ} → TimeStepping M → Fin M → ℝ}
    {d : PyDict PyVal} {g : QDeltaGen} (h : (classTime name aliases compute dTau).init d = .ok g) :
    ∃ (n : ℕ) (v : Fin n → ℝ) (tLeft : ℝ) (t : TimeStepping n), d "nodes" = some (.array n v) ∧
      paramTLeft d = .ok tLeft ∧ TimeStepping.new v tLeft = .ok t ∧
      g = { size := n, kDependent := false, compute := fun _ => compute t,
            shared := fun _ => false, dTau := dTau t } := by
  obtain ⟨q, hq, h⟩ := bind_ok h
  obtain ⟨tl, htl, h⟩ := bind_ok h
  obtain ⟨t, ht, h⟩ := bind_ok h
  cases h
  unfold paramNodes at hq
  split at hq
  · cases hq
  · rename_i n A hd
    cases hq
    exact ⟨n, A, tl, t, hd, htl, ht, rfl⟩
  · cases hq

theorem paramColl_ok {d : PyDict PyVal} {p : ℕ × String × String} (h : paramColl d = .ok p) :
    d "nNodes" = some (.int p.1) ∧ d "nodeType" = some (.str p.2.1) ∧
      d "quadType" = some (.str p.2.2) := by
  unfold paramColl at h
  split at h
  · rename_i h1 h2 h3
    cases h
    exact ⟨h1, h2, h3⟩
  · cases h
  · cases h

theorem classTable_init {name : String} {aliases : List String} {table : MinCoeffs.Table}
    {d : PyDict PyVal} {g : QDeltaGen} (h : (classTable name aliases table).init d = .ok g) :
    ∃ (n : ℕ) (nt qt : String), d "nNodes" = some (.int n) ∧ d "nodeType" = some (.str nt) ∧
      d "quadType" = some (.str qt) ∧
      g = { size := n, kDependent := false, compute := fun _ => computeFromTable table n nt qt,
            shared := fun _ => false, dTau := 0 } := by
  obtain ⟨⟨n, nt, qt⟩, hp, h⟩ := bind_ok h
  cases h
  obtain ⟨h1, h2, h3⟩ := paramColl_ok hp
  exact ⟨n, nt, qt, h1, h2, h3, rfl⟩

theorem classMINSRS_init {ext : ExternalNum}
    {d : PyDict PyVal} {g : QDeltaGen} (h : (classMINSRS ext).init d = .ok g) :
    ∃ (n : ℕ) (nt qt : String) (c : Collocation n), d "nNodes" = some (.int n) ∧
      d "nodeType" = some (.str nt) ∧ d "quadType" = some (.str qt) ∧
      Collocation.new n nt qt = .ok c ∧
      g = { size := n, kDependent := false, compute := fun _ => computeMINSRS ext n nt qt,
            shared := fun _ => false, dTau := 0 } := by
  obtain ⟨⟨n, nt, qt⟩, hp, h⟩ := bind_ok h
  obtain ⟨c, hc, h⟩ := bind_ok h
  cases h
  obtain ⟨h1, h2, h3⟩ := paramColl_ok hp
  exact ⟨n, nt, qt, c, h1, h2, h3, hc, rfl⟩

theorem classMINSRFLEX_init {ext : ExternalNum}
    {d : PyDict PyVal} {g : QDeltaGen} (h : (classMINSRFLEX ext).init d = .ok g) :
    ∃ (n : ℕ) (nt qt : String) (c : Collocation n), d "nNodes" = some (.int n) ∧
      d "nodeType" = some (.str nt) ∧ d "quadType" = some (.str qt) ∧
      Collocation.new n nt qt = .ok c ∧
      g = { size := n, kDependent := true, compute := computeMINSRFLEX ext n nt qt c.nodes,
            shared := fun k => k.getD 1 > n, dTau := 0 } := by
  obtain ⟨⟨n, nt, qt⟩, hp, h⟩ := bind_ok h
  obtain ⟨c, hc, h⟩ := bind_ok h
  cases h
  obtain ⟨h1, h2, h3⟩ := paramColl_ok hp
  exact ⟨n, nt, qt, c, h1, h2, h3, hc, rfl⟩

/-! ## Shapes of the matrices -/

/-- `A` is diagonal. -/
def IsDiagonal {n : ℕ} (A : Matrix (Fin n) (Fin n) ℝ) : Prop := ∀ i j, i ≠ j → A i j = 0

/-- `A` is lower triangular. -/
def IsLower {n : ℕ} (A : Matrix (Fin n) (Fin n) ℝ) : Prop := ∀ i j, i < j → A i j = 0

/-- `A` is strictly lower triangular. -/
def IsStrictLower {n : ℕ} (A : Matrix (Fin n) (Fin n) ℝ) : Prop := ∀ i j, i ≤ j → A i j = 0

theorem IsDiagonal.lower {n : ℕ} {A : Matrix (Fin n) (Fin n) ℝ} (h : IsDiagonal A) : IsLower A :=
  fun i j hij => h i j hij.ne

theorem IsStrictLower.lower {n : ℕ} {A : Matrix (Fin n) (Fin n) ℝ} (h : IsStrictLower A) :
    IsLower A := fun i j hij => h i j hij.le

theorem isDiagonal_diagonal {n : ℕ} (v : Fin n → ℝ) : IsDiagonal (Matrix.diagonal v) :=
  fun _ _ hij => Matrix.diagonal_apply_ne _ hij

theorem isDiagonal_div {n : ℕ} (v : Fin n → ℝ) (x : ℝ) :
    IsDiagonal (Matrix.of fun r c => Matrix.diagonal v r c / x) := fun i j hij => by
  rw [Matrix.of_apply, Matrix.diagonal_apply_ne _ hij, zero_div]

theorem computeLDU_diag {n : ℕ} {Q A : Matrix (Fin n) (Fin n) ℝ} (h : computeLDU Q = .ok A) :
    IsDiagonal A := by
  obtain ⟨s, hs, h⟩ := bind_ok h
  cases h
  obtain ⟨s', hs', hi⟩ := ldu_inv Q
  rw [hs] at hs'
  cases hs'
  exact hi.diag

theorem computeMIN_diag {ext : ExternalNum} {n : ℕ} {Q A : Matrix (Fin n) (Fin n) ℝ}
    (h : computeMIN ext Q = .ok A) : IsDiagonal A := by
  unfold computeMIN npInv at h
  split_ifs at h
  cases h
  rw [Matrix.inv_diagonal]
  exact isDiagonal_diagonal _

theorem computeFromTable_diag {t : MinCoeffs.Table} {n : ℕ} {nt qt : String}
    {A : Matrix (Fin n) (Fin n) ℝ} (h : computeFromTable t n nt qt = .ok A) : IsDiagonal A := by
  unfold computeFromTable at h
  split at h
  · cases h
  · split_ifs at h
    cases h
    exact isDiagonal_diagonal _

theorem computeMINSRS_diag {ext : ExternalNum} {n : ℕ} {nt qt : String}
    {A : Matrix (Fin n) (Fin n) ℝ} (h : computeMINSRS ext n nt qt = .ok A) : IsDiagonal A := by
  unfold computeMINSRS at h
  by_cases hm : (if dropsFirst qt then 2 else 1) ≤ n
  · simp only [hm, dif_pos] at h
    obtain ⟨r, -, h⟩ := bind_ok h
    cases h
    exact isDiagonal_diagonal _
  · simp only [hm, dif_neg, not_false_iff] at h
    cases h

theorem computeMINSRFLEX_diag {ext : ExternalNum} {n : ℕ} {nt qt : String} {x : Fin n → ℝ}
    {k : Option ℤ} {A : Matrix (Fin n) (Fin n) ℝ} (h : computeMINSRFLEX ext n nt qt x k = .ok A) :
    IsDiagonal A := by
  obtain ⟨k', -, h⟩ := bind_ok h
  split_ifs at h
  · cases h
    exact isDiagonal_diagonal _
  · exact computeMINSRS_diag h

theorem computeJumper_diag {n : ℕ} {x : Fin n → ℝ}
    {k : Option ℤ} {A : Matrix (Fin n) (Fin n) ℝ} (h : computeJumper x k = .ok A) :
    IsDiagonal A := by
  obtain ⟨k', -, h⟩ := bind_ok h
  cases h
  exact isDiagonal_div _ _

theorem computeFlexJumper_diag {n : ℕ} {x : Fin n → ℝ}
    {k : Option ℤ} {A : Matrix (Fin n) (Fin n) ℝ} (h : computeFlexJumper x k = .ok A) :
    IsDiagonal A := by
  obtain ⟨k', -, h⟩ := bind_ok h
  cases h
  exact isDiagonal_div _ _

/-- What the loop over the columns in `SOE.computeQDelta` leaves untouched. -/
theorem soeRow_of_ge {a : Fin 3 → ℝ} {m : ℕ} (hm : 1 ≤ m) {QD : ℕ → ℕ → ℝ}
    (h : ∀ r c, r ≤ c → QD r c = 0) : ∀ r c, r ≤ c → TimeStepping.soeRow a m QD r c = 0 := by
  unfold TimeStepping.soeRow
  have key : ∀ (l : List ℕ), (∀ j ∈ l, j < m - 1) → ∀ QD : ℕ → ℕ → ℝ,
      (∀ r c, r ≤ c → QD r c = 0) → ∀ r c, r ≤ c →
      l.foldl (fun (QD : ℕ → ℕ → ℝ) j => Function.update QD m (Function.update (QD m) j
      (if m > 1 then -(a 1) / a 2 * QD (m - 1) j - a 0 / a 2 * QD (m - 2) j
        else -(a 1) / a 2 * QD (m - 1) j))) QD r c = 0 := by
    intro l
    induction l with
    | nil => intro _ QD hQD; exact hQD
    | cons j l ih =>
      intro hl QD hQD
      rw [List.foldl_cons]
      refine ih (fun i hi => hl i (by simp [hi])) _ fun r c hrc => ?_
      have hj := hl j (by simp)
      by_cases hr : r = m
      · subst hr
        rw [Function.update_self, Function.update_of_ne (by omega)]
        exact hQD _ _ hrc
      · rw [Function.update_of_ne hr]
        exact hQD _ _ hrc
  refine key _ (fun j hj => List.mem_range.mp hj) _ fun r c hrc => ?_
  by_cases hr : r = m
  · subst hr
    rw [Function.update_self, Function.update_of_ne (by omega)]
    exact h _ _ hrc
  · rw [Function.update_of_ne hr]
    exact h _ _ hrc

theorem computeSOE_strictLower {n : ℕ} {g : TimeStepping n} {A : Matrix (Fin n) (Fin n) ℝ}
    (h : g.computeSOE = .ok A) : IsStrictLower A := by
  obtain ⟨alpha, -, h⟩ := bind_ok h
  cases h
  intro i j hij
  rw [Matrix.of_apply]
  have key : ∀ (l : List ℕ), (∀ m ∈ l, 1 ≤ m) → ∀ QD : ℕ → ℕ → ℝ,
      (∀ r c, r ≤ c → QD r c = 0) → ∀ r c, r ≤ c →
      l.foldl (fun QD m => TimeStepping.soeRow (alpha.getD (m - 1) 0) m QD) QD r c = 0 := by
    intro l
    induction l with
    | nil => intro _ QD hQD; exact hQD
    | cons m l ih =>
      intro hl QD hQD
      rw [List.foldl_cons]
      exact ih (fun i hi => hl i (by simp [hi])) _ (soeRow_of_ge (hl m (by simp)) hQD)
  exact key _ (fun m hm => (List.mem_range'_1.mp hm).1) _ (fun _ _ _ => rfl) _ _ (Fin.le_def.mp hij)

end QMat
