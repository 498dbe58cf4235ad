import Verif.Lemmas.QDeltaGen
import Verif.Props.Collocation

/-!
# C52, C53: coefficients for several sweeps
-/

namespace QMat

open Matrix

/-- `mapM` in `Except`: all the values, or an exception. -/
theorem mapM_ok_iff {α β : Type} {f : α → PyResult β} {l : List α} {bs : List β} :
    l.mapM f = .ok bs ↔ List.Forall₂ (fun a b => f a = .ok b) l bs := by
  induction l generalizing bs with
  | nil =>
    rw [List.mapM_nil]
    constructor
    · intro h; cases h; exact .nil
    · intro h; cases h; rfl
  | cons a l ih =>
    rw [List.mapM_cons]
    constructor
    · intro h
      obtain ⟨b, hb, h⟩ := bind_ok h
      obtain ⟨bs', hbs, h⟩ := bind_ok h
      cases h
      exact .cons hb (ih.mp hbs)
    · intro h
      cases h with
      | cons hb hbs =>
        rw [hb, ih.mpr hbs]
        rfl

/-- The coefficients asked for by `form`: `QDelta`, or the differences of its consecutive rows. -/
def formValue {n : ℕ} (form : String) (A : Matrix (Fin n) (Fin n) ℝ) : Matrix (Fin n) (Fin n) ℝ :=
  Matrix.of fun i j => if form = "N2N" ∧ 0 < (i : ℕ) then A i j - A ⟨i - 1, by omega⟩ j else A i j

theorem formGen_ok {g : QDeltaGen} {form : String} (hform : form = "Z2N" ∨ form = "N2N") :
    ∃ gen, g.formGen form = .ok gen ∧ ∀ k, gen k = (g.getQDelta k).map (formValue form) := by
  rcases hform with rfl | rfl
  · refine ⟨_, rfl, fun k => ?_⟩
    cases h : g.getQDelta k with
    | error e => rfl
    | ok A =>
      change _ = Except.ok (formValue "Z2N" A)
      have : formValue "Z2N" A = A := by
        ext i j
        simp [formValue]
      rw [this]
  · refine ⟨_, rfl, fun k => ?_⟩
    unfold QDeltaGen.getSDelta
    cases h : g.getQDelta k with
    | error e => rfl
    | ok A =>
      change Except.ok (qgenT g.size * A) = Except.ok (formValue "N2N" A)
      congr 1
      ext i j
      rw [qgenT_mul]
      simp only [formValue, Matrix.of_apply, true_and]
      split_ifs <;> simp

/-- C52: `genCoeffs` for a list of sweeps stacks, in order, the coefficients of the single sweeps, in
the form asked for, with `dTau` if asked for; it raises exactly when one of the sweeps does. -/
theorem C52_list (g : QDeltaGen) (ks : List (Option ℤ)) (form : String)
    (hform : form = "Z2N" ∨ form = "N2N") (dTau : Bool) :
    (∀ out, g.genCoeffs (.list ks) form dTau = .ok out → ∃ As : List (Matrix (Fin g.size) (Fin g.size) ℝ),
      out.coeffs = .stack g.size As ∧ (As.length = ks.length) ∧
      ∀ (i : ℕ) (h : i < ks.length) (h' : i < As.length), ∃ A, g.getQDelta ks[i] = .ok A ∧
        As[i] = formValue form A) ∧
    ((∀ k ∈ ks, ∃ A, g.getQDelta k = .ok A) → ∃ out, g.genCoeffs (.list ks) form dTau = .ok out) := by
  obtain ⟨gen, h1, h2⟩ := formGen_ok (g := g) hform
  unfold QDeltaGen.genCoeffs
  rw [h1]
  constructor
  · intro out h
    obtain ⟨_, hx, h⟩ := bind_ok h
    cases hx
    obtain ⟨As, hAs, h⟩ := bind_ok h
    cases h
    have hf := mapM_ok_iff.mp hAs
    refine ⟨As, rfl, hf.length_eq.symm, fun i h h' => ?_⟩
    have := List.Forall₂.get hf h h'
    simp only [List.get_eq_getElem] at this
    rw [h2] at this
    cases hA : g.getQDelta ks[i] with
    | error e => rw [hA] at this; cases this
    | ok A =>
      rw [hA] at this
      exact ⟨A, rfl, (Except.ok.inj this).symm⟩
  · intro h
    have : ∃ As, ks.mapM gen = .ok As := by
      clear h1
      induction ks with
      | nil => exact ⟨[], rfl⟩
      | cons k ks ih =>
        obtain ⟨As, hAs⟩ := ih fun k hk => h k (by simp [hk])
        obtain ⟨A, hA⟩ := h k (by simp)
        refine ⟨formValue form A :: As, ?_⟩
        rw [List.mapM_cons, h2, hA, hAs]
        rfl
    obtain ⟨As, hAs⟩ := this
    exact ⟨_, by simp only [bind, Except.bind, pure, Except.pure, hAs]; rfl⟩

/-- Instance: two sweeps of a sweep-dependent generator, as differences between the nodes. -/
example (ext : ExternalNum) : ∃ g out, makeQD ext "Jumper" (PyDict.single "nodes" (.array 2 ![1 / 3, 1])) = .ok g ∧
    g.genCoeffs (.list [some 1, some 2]) "N2N" true = .ok out := by
  obtain ⟨g, hg⟩ : ∃ g, makeQD ext "Jumper" (PyDict.single "nodes" (.array 2 ![1 / 3, 1])) = .ok g := ⟨_, rfl⟩
  obtain ⟨out, h⟩ := (C52_list g [some 1, some 2] "N2N" (Or.inr rfl) true).2 (fun k hk => by
    cases hg
    simp only [List.mem_cons, List.not_mem_nil, or_false] at hk
    rcases hk with rfl | rfl <;> exact ⟨_, rfl⟩)
  exact ⟨g, out, hg, h⟩

/-- C52: `genCoeffs` for one sweep. -/
theorem C52_scalar (g : QDeltaGen) (k : Option ℤ) (form : String)
    (hform : form = "Z2N" ∨ form = "N2N") (dTau : Bool) :
    g.genCoeffs (.scalar k) form dTau = (g.getQDelta k).map fun A =>
      { coeffs := .single g.size (formValue form A),
        dTau := if dTau then some ⟨g.size, g.dTau⟩ else none } := by
  obtain ⟨gen, h1, h2⟩ := formGen_ok (g := g) hform
  unfold QDeltaGen.genCoeffs
  simp only [h1, bind, Except.bind, pure, Except.pure, h2]
  cases g.getQDelta k <;> rfl

/-- Instance: the third sweep, as the matrix from zero to the nodes. -/
example (ext : ExternalNum) : ∃ g A, makeQD ext "Jumper" (PyDict.single "nodes" (.array 2 ![1 / 3, 1])) = .ok g ∧
    g.getQDelta (some 3) = .ok A ∧ ∃ out, g.genCoeffs (.scalar (some 3)) "Z2N" false = .ok out := by
  refine ⟨_, _, rfl, rfl, ?_⟩
  rw [C52_scalar _ _ _ (Or.inl rfl)]
  exact ⟨_, rfl⟩

/-- C52: `dTau` is returned exactly when asked for; other forms raise `ValueError`. -/
theorem C52_dTau_form (g : QDeltaGen) (k : KArg) (form : String) (dTau : Bool) :
    (∀ out, g.genCoeffs k form dTau = .ok out → (form = "Z2N" ∨ form = "N2N") ∧
      out.dTau = if dTau then some ⟨g.size, g.dTau⟩ else none) ∧
    (form ≠ "Z2N" → form ≠ "N2N" → g.genCoeffs k form dTau = .error .valueError) := by
  constructor
  · intro out h
    obtain ⟨gen, hgen, h⟩ := bind_ok h
    have hd : out.dTau = if dTau then some ⟨g.size, g.dTau⟩ else none := by
      cases k <;>
      · obtain ⟨c, -, h⟩ := bind_ok h
        cases h
        rfl
    refine ⟨?_, hd⟩
    unfold QDeltaGen.formGen at hgen
    split_ifs at hgen with h1 h2
    · exact Or.inl h1
    · exact Or.inr h2
  · intro h1 h2
    simp [QDeltaGen.genCoeffs, QDeltaGen.formGen, h1, h2, bind, Except.bind]

/-- Sweeps `1, 2, 3` of a `Jumper`. -/
example (ext : ExternalNum) : ∃ g, makeQD ext "Jumper" (PyDict.single "nodes" (.array 2 ![1 / 3, 1])) = .ok g ∧
    ∀ k ∈ [some 1, some 2, some (3 : ℤ)], ∃ A, g.getQDelta k = .ok A := by
  refine ⟨_, rfl, fun k hk => ?_⟩
  simp only [List.mem_cons, List.not_mem_nil, or_false] at hk
  rcases hk with rfl | rfl | rfl <;> exact ⟨_, rfl⟩

/-! ## C53 -/

/-- The list of types that a call uses: a string is repeated `nSweeps` times, a list is completed with
its last element. -/
inductive SweepTypes : QDType → NSweeps → List String → Prop
  | str (s : String) (n : ℕ) (hn : 0 < n) : SweepTypes (.str s) (.int n) (List.replicate n s)
  | list (l : List String) (hl : l ≠ []) : SweepTypes (.list l) .none l
  | listN (l : List String) (hl : l ≠ []) (n : ℕ) (hn : l.length ≤ n) :
      SweepTypes (.list l) (.int n) (l ++ List.replicate (n - l.length) (l.getLast hl))

theorem lookupQDelta_eq {ext : ExternalNum} {name : String} {params : PyDict PyVal} {C : QDClass}
    (h : lookupQDelta ext name = .ok C) : makeQD ext name params = C.call [] params := by
  unfold makeQD
  rw [h]
  rfl

theorem npStack_ok {mats : List (Σ M, Matrix (Fin M) (Fin M) ℝ)} {c : QDArray}
    (h : npStack mats = .ok c) : ∃ (M : ℕ) (As : List (Matrix (Fin M) (Fin M) ℝ)),
      c = .stack M As ∧ mats = As.map (Sigma.mk M) := by
  cases mats with
  | nil =>
    cases h
    exact ⟨0, [], rfl, rfl⟩
  | cons p rest =>
    obtain ⟨M, A⟩ := p
    obtain ⟨As, hAs, h⟩ := bind_ok h
    cases h
    refine ⟨M, A :: As, rfl, ?_⟩
    rw [List.map_cons]
    congr 1
    have hf := mapM_ok_iff.mp hAs
    clear hAs h
    induction hf with
    | nil => rfl
    | @cons p B ps Bs hB _ ih =>
      rw [List.map_cons, ← ih]
      congr 1
      obtain ⟨N, C⟩ := p
      dsimp only at hB
      split_ifs at hB with hN
      subst hN
      cases hB
      rfl

theorem npStack_map {M : ℕ} (As : List (Matrix (Fin M) (Fin M) ℝ)) (h : As ≠ []) :
    npStack (As.map (Sigma.mk M)) = .ok (.stack M As) := by
  cases As with
  | nil => exact absurd rfl h
  | cons A As =>
    rw [List.map_cons]
    change (do
      let As ← (As.map (Sigma.mk M)).mapM (fun B : (Σ M, Matrix (Fin M) (Fin M) ℝ) =>
        if h : B.1 = M then
          (.ok (B.2.submatrix (Fin.cast h.symm) (Fin.cast h.symm)) : PyResult _)
        else .error .valueError)
      return QDArray.stack M (A :: As)) = _
    have : (As.map (Sigma.mk M)).mapM (fun B : (Σ M, Matrix (Fin M) (Fin M) ℝ) => if h : B.1 = M then
        (.ok (B.2.submatrix (Fin.cast h.symm) (Fin.cast h.symm)) : PyResult _)
      else .error .valueError) = .ok As := by
      rw [mapM_ok_iff]
      clear h
      induction As with
      | nil => exact .nil
      | cons B Bs ih => exact .cons (by simp) ih
    rw [this]
    rfl

/-- The coefficients of one generator for one sweep, with their size. -/
theorem sized_ok {g : QDeltaGen} {k : Option ℤ} {form : String} (hform : form = "Z2N" ∨ form = "N2N")
    (p : Σ M, Matrix (Fin M) (Fin M) ℝ) :
    (g.genCoeffs (.scalar k) form >>= fun out => out.coeffs.sized) = .ok p ↔
      ∃ A, g.getQDelta k = .ok A ∧ p = ⟨g.size, formValue form A⟩ := by
  rw [C52_scalar g k form hform]
  cases h : g.getQDelta k with
  | error e =>
    constructor
    · intro h; cases h
    · rintro ⟨A, hA, -⟩; cases hA
  | ok A =>
    constructor
    · intro h
      cases h
      exact ⟨A, rfl, rfl⟩
    · rintro ⟨B, hB, rfl⟩
      cases hB
      rfl

theorem getQD_ok {ext : ExternalNum} {name : String} {params : PyDict PyVal} {k : Option ℤ}
    {p : Σ M, Matrix (Fin M) (Fin M) ℝ} : getQD ext name params k = .ok p ↔
      ∃ g A, makeQD ext name params = .ok g ∧ g.getQDelta k = .ok A ∧ p = ⟨g.size, A⟩ := by
  constructor
  · intro h
    obtain ⟨g, hg, h⟩ := bind_ok h
    obtain ⟨A, hA, h⟩ := bind_ok h
    cases h
    exact ⟨g, A, hg, hA, rfl⟩
  · rintro ⟨g, A, hg, hA, rfl⟩
    unfold getQD
    rw [hg]
    change (g.getQDelta k >>= _) = _
    rw [hA]
    rfl

theorem sigma_formValue {M n : ℕ} {form : String} {X : Matrix (Fin M) (Fin M) ℝ}
    {A : Matrix (Fin n) (Fin n) ℝ}
    (h : (⟨M, X⟩ : Σ M, Matrix (Fin M) (Fin M) ℝ) = ⟨n, formValue form A⟩) :
    ∃ A', (⟨n, A⟩ : Σ M, Matrix (Fin M) (Fin M) ℝ) = ⟨M, A'⟩ ∧ X = formValue form A' := by
  obtain ⟨rfl, h⟩ := Sigma.mk.inj_iff.mp h
  exact ⟨A, rfl, eq_of_heq h⟩

theorem formValue_sigma {M n : ℕ} (form : String) {X : Matrix (Fin M) (Fin M) ℝ}
    {A : Matrix (Fin n) (Fin n) ℝ} (h : (⟨M, X⟩ : Σ M, Matrix (Fin M) (Fin M) ℝ) = ⟨n, A⟩) :
    (⟨M, formValue form X⟩ : Σ M, Matrix (Fin M) (Fin M) ℝ) = ⟨n, formValue form A⟩ := by
  obtain ⟨rfl, h⟩ := Sigma.mk.inj_iff.mp h
  rw [eq_of_heq h]

/-- What a call with a list of types returns: the stacked coefficients of sweep `i + 1` of type `i`,
all of one size, and the `dTau` of the first type. -/
def StackOf (ext : ExternalNum) (types : List String) (form : String) (dTau : Bool)
    (params : PyDict PyVal) (out : QDOut) : Prop :=
  ∃ (M : ℕ) (As : List (Matrix (Fin M) (Fin M) ℝ)), out.coeffs = .stack M As ∧
    As.length = types.length ∧
    (∀ (i : ℕ) (hi : i < types.length) (hi' : i < As.length),
      ∃ A, getQD ext types[i] params (some (i + 1 : ℤ)) = .ok ⟨M, A⟩ ∧ As[i] = formValue form A) ∧
    ∃ g, makeQD ext (types.headD "") params = .ok g ∧
      out.dTau = if dTau then some ⟨g.size, g.dTau⟩ else none

theorem genQDeltaList_many {ext : ExternalNum} {types : List String} {n : ℕ} {form : String}
    {dTau : Bool} {params : PyDict PyVal} {out : QDOut} (hform : form = "Z2N" ∨ form = "N2N")
    (hlen : types.length ≠ 1) (h : genQDeltaList ext types n form dTau params = .ok out) :
    StackOf ext types form dTau params out := by
  obtain ⟨Gens, hGens, h⟩ := bind_ok h
  have hl := (mapM_ok_iff.mp hGens)
  have hlen' : Gens.length ≠ 1 := by rwa [← hl.length_eq]
  have h : (do
      let gens ← Gens.mapM fun Gen => Gen.call [] params
      let mats ← (gens.mapIdx fun k gen => (k, gen)).mapM fun (kg : ℕ × QDeltaGen) => do
        let out ← kg.2.genCoeffs (.scalar (some (kg.1 + 1 : ℤ))) form
        out.coeffs.sized
      let coeffs ← npStack mats
      match gens with
      | [] => throw .indexError
      | g :: _ => return { coeffs := coeffs, dTau := if dTau then some ⟨g.size, g.dTau⟩ else none } :
        PyResult QDOut) = .ok out := by
    match Gens, hlen' with
    | [], _ => exact h
    | _ :: _ :: _, _ => exact h
  obtain ⟨gens, hgens, h⟩ := bind_ok h
  obtain ⟨mats, hmats, h⟩ := bind_ok h
  obtain ⟨c, hc, hout⟩ := bind_ok h
  obtain ⟨M, As, rfl, rfl⟩ := npStack_ok hc
  have hm := mapM_ok_iff.mp hmats
  have hg := mapM_ok_iff.mp hgens
  have l1 := hl.length_eq
  have l2 := hg.length_eq
  have l3 := hm.length_eq
  simp only [List.length_mapIdx, List.length_map] at l3
  have hmake : ∀ (i : ℕ) (hi : i < types.length) (hi' : i < gens.length),
      makeQD ext types[i] params = .ok gens[i] := by
    intro i hi hi'
    have a1 := List.Forall₂.get hl hi (by omega)
    have a2 := List.Forall₂.get hg (by omega) hi'
    simp only [List.get_eq_getElem] at a1 a2
    rw [lookupQDelta_eq a1, a2]
  cases gens with
  | nil => cases hout
  | cons g gens =>
    cases hout
    refine ⟨M, As, rfl, by omega, fun i hi hi' => ?_, g, ?_, rfl⟩
    · have a3 := List.Forall₂.get (i := i) hm (by simp; simp at l2; omega) (by simpa using hi')
      simp only [List.get_eq_getElem, List.getElem_mapIdx, List.getElem_map] at a3
      rw [sized_ok hform] at a3
      obtain ⟨A, hA, hp⟩ := a3
      have hmk := hmake i hi (by simp at l2 ⊢; omega)
      obtain ⟨A', e, e'⟩ := sigma_formValue hp
      exact ⟨A', getQD_ok.mpr ⟨_, A, hmk, hA, e.symm⟩, e'⟩
    · cases types with
      | nil => simp at l1 l2; omega
      | cons t ts => exact hmake 0 (by simp) (by simp)

theorem genQDeltaList_one {ext : ExternalNum} {s : String} {n : ℕ} {form : String}
    {dTau : Bool} {params : PyDict PyVal} {out : QDOut} (hform : form = "Z2N" ∨ form = "N2N")
    (hn : 0 < n) (h : genQDeltaList ext [s] n form dTau params = .ok out) :
    StackOf ext (List.replicate n s) form dTau params out := by
  obtain ⟨Gens, hGens, h⟩ := bind_ok h
  cases mapM_ok_iff.mp hGens with
  | @cons _ C _ _ hC hnil =>
    cases hnil
    obtain ⟨g, hg, h⟩ := bind_ok h
    have hmk : makeQD ext s params = .ok g := by rw [lookupQDelta_eq hC, hg]
    obtain ⟨As, e1, e2, e3⟩ := (C52_list g _ form hform dTau).1 out h
    refine ⟨g.size, As, e1, by simpa using e2, fun i hi hi' => ?_, g, ?_, ?_⟩
    · simp only [List.length_replicate] at hi
      obtain ⟨A, hA, h'⟩ := e3 i (by simpa using hi) hi'
      refine ⟨A, ?_, h'⟩
      simp only [List.getElem_map, List.getElem_range] at hA
      rw [List.getElem_replicate]
      exact getQD_ok.mpr ⟨g, A, hmk, hA, rfl⟩
    · cases n with
      | zero => omega
      | succ n => simpa [List.replicate_succ] using hmk
    · exact ((C52_dTau_form g _ form dTau).1 out h).2

/-- C53: with a list of types or a number of sweeps, the matrix of sweep `i + 1` is the one of the
`i`-th type for `k = i + 1`; a string is repeated, a list is completed with its last element; `dTau` is
the one of the first type. -/
theorem C53_stack (ext : ExternalNum) (t : QDType) (n : NSweeps) (types : List String)
    (ht : SweepTypes t n types) (form : String) (dTau : Bool) (params : PyDict PyVal) (out : QDOut)
    (hform : form = "Z2N" ∨ form = "N2N")
    (h : (genQDeltaCoeffs ext t n form dTau params).2 = .ok out) :
    StackOf ext types form dTau params out := by
  cases ht with
  | str s n hn =>
    have : ((n : ℤ) > 0) := by exact_mod_cast hn
    simp only [genQDeltaCoeffs, this, if_true, Int.toNat_natCast] at h
    exact genQDeltaList_one hform hn h
  | list _ hl =>
    have : types.length ≠ 0 := by simpa using hl
    simp only [genQDeltaCoeffs, this, if_false] at h
    by_cases h1 : types.length = 1
    · obtain ⟨s, rfl⟩ := List.length_eq_one_iff.mp h1
      exact genQDeltaList_one (n := 1) hform one_pos h
    · exact genQDeltaList_many hform h1 h
  | listN l hl n hn =>
    have h0 : l.length ≠ 0 := by simpa using hl
    have h1 : ((n : ℤ) > 0) := by omega
    have h2 : ¬ ((n : ℤ) < l.length) := by omega
    simp only [genQDeltaCoeffs, h0, if_false, h1, h2, if_true, Int.toNat_natCast,
      List.getLast?_eq_getLast_of_ne_nil hl, Option.getD_some] at h
    by_cases h1 : (l ++ List.replicate (n - l.length) (l.getLast hl)).length = 1
    · have hn1 : n = 1 := by simp at h1; omega
      obtain ⟨s, hs⟩ := List.length_eq_one_iff.mp h1
      subst hn1
      rw [hs] at h ⊢
      exact genQDeltaList_one (n := 1) hform one_pos h
    · exact genQDeltaList_many hform h1 h

/-- All the sweeps can be computed, with matrices of one size. -/
def SweepsOk (ext : ExternalNum) (types : List String) (params : PyDict PyVal) : Prop :=
  ∃ M, ∀ (i : ℕ) (hi : i < types.length),
    ∃ A : Matrix (Fin M) (Fin M) ℝ, getQD ext types[i] params (some (i + 1 : ℤ)) = .ok ⟨M, A⟩

theorem forall2_of_get {α β : Type} {R : α → β → Prop} {l : List α}
    (h : ∀ (i : ℕ) (hi : i < l.length), ∃ b, R l[i] b) : ∃ bs, List.Forall₂ R l bs := by
  induction l with
  | nil => exact ⟨[], .nil⟩
  | cons a l ih =>
    obtain ⟨b, hb⟩ := h 0 (by simp)
    obtain ⟨bs, hbs⟩ := ih fun i hi => by
      have := h (i + 1) (by simpa using hi)
      simpa using this
    exact ⟨b :: bs, .cons hb hbs⟩

theorem makeQD_lookup {ext : ExternalNum} {name : String} {params : PyDict PyVal} {g : QDeltaGen}
    (h : makeQD ext name params = .ok g) :
    ∃ C, lookupQDelta ext name = .ok C ∧ C.call [] params = .ok g := bind_ok h

theorem genQDeltaList_total {ext : ExternalNum} {types : List String} {form : String}
    {dTau : Bool} {params : PyDict PyVal} (hform : form = "Z2N" ∨ form = "N2N") (n : ℕ)
    (h1 : types.length ≠ 1) (h0 : types ≠ []) (h : SweepsOk ext types params) :
    ∃ out, genQDeltaList ext types n form dTau params = .ok out := by
  obtain ⟨M, h⟩ := h
  obtain ⟨Gens, hGens⟩ := forall2_of_get (l := types)
    (R := fun t C => lookupQDelta ext t = .ok C ∧ ∃ g, C.call [] params = .ok g) fun i hi => by
      obtain ⟨A, hA⟩ := h i hi
      obtain ⟨g, A', hg, hA', -⟩ := getQD_ok.mp hA
      obtain ⟨C, hC, hcall⟩ := makeQD_lookup hg
      exact ⟨C, hC, g, hcall⟩
  have e1 : types.mapM (lookupQDelta ext) = .ok Gens :=
    mapM_ok_iff.mpr (hGens.imp fun _ _ h => h.1)
  have l1 := hGens.length_eq
  obtain ⟨gens, hgens⟩ := forall2_of_get (l := Gens)
    (R := fun C g => QDClass.call C [] params = .ok g) fun i hi => by
      have := List.Forall₂.get (i := i) hGens (by omega) hi
      simpa using this.2
  have e2 : Gens.mapM (fun Gen => Gen.call [] params) = .ok gens := mapM_ok_iff.mpr hgens
  have l2 := hgens.length_eq
  have hmake : ∀ (i : ℕ) (hi : i < types.length) (hi' : i < gens.length),
      makeQD ext types[i] params = .ok gens[i] := by
    intro i hi hi'
    have a1 := List.Forall₂.get (i := i) hGens hi (by omega)
    have a2 := List.Forall₂.get (i := i) hgens (by omega) hi'
    simp only [List.get_eq_getElem] at a1 a2
    rw [lookupQDelta_eq a1.1, a2]
  obtain ⟨As, hAs⟩ := forall2_of_get (l := gens.mapIdx fun k gen => (k, gen))
    (R := fun (kg : ℕ × QDeltaGen) (A : Matrix (Fin M) (Fin M) ℝ) =>
      (kg.2.genCoeffs (.scalar (some (kg.1 + 1 : ℤ))) form >>= fun out => out.coeffs.sized) =
        .ok ⟨M, A⟩) fun i hi => by
      simp only [List.length_mapIdx] at hi
      obtain ⟨A, hA⟩ := h i (by omega)
      obtain ⟨g, A', hg, hA', hp⟩ := getQD_ok.mp hA
      rw [hmake i (by omega) hi] at hg
      cases hg
      refine ⟨formValue form A, ?_⟩
      simp only [List.getElem_mapIdx]
      rw [sized_ok hform]
      exact ⟨A', hA', formValue_sigma form hp⟩
  have e3 : (gens.mapIdx fun k gen => (k, gen)).mapM (fun (kg : ℕ × QDeltaGen) => do
        let out ← kg.2.genCoeffs (.scalar (some (kg.1 + 1 : ℤ))) form
        out.coeffs.sized) = .ok (As.map (Sigma.mk M)) := by
    rw [mapM_ok_iff, List.forall₂_map_right_iff]
    exact hAs
  have l3 := hAs.length_eq
  simp only [List.length_mapIdx] at l3
  have hpos : 0 < types.length := List.length_pos_iff.mpr h0
  have e4 := npStack_map As (by intro h; rw [h, List.length_nil] at l3; omega)
  have hG1 : Gens.length ≠ 1 := by omega
  have hG0 : Gens.length ≠ 0 := by omega
  cases gens with
  | nil => exact absurd l2 (by simpa using hG0)
  | cons g gens =>
    refine ⟨{ coeffs := .stack M As, dTau := if dTau then some ⟨g.size, g.dTau⟩ else none }, ?_⟩
    have e0 : genQDeltaList ext types n form dTau params = (do
      let gens ← Gens.mapM fun Gen => Gen.call [] params
      let mats ← (gens.mapIdx fun k gen => (k, gen)).mapM fun (kg : ℕ × QDeltaGen) => do
        let out ← kg.2.genCoeffs (.scalar (some (kg.1 + 1 : ℤ))) form
        out.coeffs.sized
      let coeffs ← npStack mats
      match gens with
      | [] => throw .indexError
      | g :: _ => return { coeffs := coeffs, dTau := if dTau then some ⟨g.size, g.dTau⟩ else none } :
        PyResult QDOut) := by
      unfold genQDeltaList
      rw [e1]
      match Gens, hG1 with
      | [], _ => rfl
      | _ :: _ :: _, _ => rfl
    rw [e0]
    rw [e2]
    change (do
      let mats ← ((g :: gens).mapIdx fun k gen => (k, gen)).mapM fun (kg : ℕ × QDeltaGen) => do
        let out ← kg.2.genCoeffs (.scalar (some (kg.1 + 1 : ℤ))) form
        out.coeffs.sized
      let coeffs ← npStack mats
      return { coeffs := coeffs, dTau := if dTau then some ⟨g.size, g.dTau⟩ else none } :
        PyResult QDOut) = _
    rw [e3]
    change (do
      let coeffs ← npStack (As.map (Sigma.mk M))
      return { coeffs := coeffs, dTau := if dTau then some ⟨g.size, g.dTau⟩ else none } :
        PyResult QDOut) = _
    rw [e4]
    rfl

theorem genQDeltaList_one_total {ext : ExternalNum} {s : String} {n : ℕ} {form : String}
    {dTau : Bool} {params : PyDict PyVal} (hform : form = "Z2N" ∨ form = "N2N")
    (hn : 0 < n) (h : SweepsOk ext (List.replicate n s) params) :
    ∃ out, genQDeltaList ext [s] n form dTau params = .ok out := by
  obtain ⟨M, h⟩ := h
  obtain ⟨A, hA⟩ := h 0 (by simpa using hn)
  obtain ⟨g, A', hg, -, -⟩ := getQD_ok.mp hA
  rw [List.getElem_replicate] at hg
  obtain ⟨C, hC, hcall⟩ := makeQD_lookup hg
  obtain ⟨out, hout⟩ := (C52_list g ((List.range n).map fun (k : ℕ) => some ((k : ℤ) + 1)) form hform
    dTau).2 (by
      intro k hk
      obtain ⟨i, hi, rfl⟩ := List.mem_map.mp hk
      obtain ⟨A, hA⟩ := h i (by simpa using hi)
      obtain ⟨g', A', hg', hA', -⟩ := getQD_ok.mp hA
      rw [List.getElem_replicate, hg] at hg'
      cases hg'
      exact ⟨A', hA'⟩)
  refine ⟨out, ?_⟩
  unfold genQDeltaList
  rw [mapM_ok_iff.mpr (show List.Forall₂ _ [s] [C] from .cons hC .nil)]
  change (C.call [] params >>= _) = _
  rw [hcall]
  exact hout

/-- C53: the call succeeds as soon as every sweep can be computed (with matrices of one size). -/
theorem C53_total (ext : ExternalNum) (t : QDType) (n : NSweeps) (types : List String)
    (ht : SweepTypes t n types) (form : String) (dTau : Bool) (params : PyDict PyVal)
    (hform : form = "Z2N" ∨ form = "N2N") (h : SweepsOk ext types params) :
    ∃ out, (genQDeltaCoeffs ext t n form dTau params).2 = .ok out := by
  cases ht with
  | str s n hn =>
    have : ((n : ℤ) > 0) := by exact_mod_cast hn
    simp only [genQDeltaCoeffs, this, if_true, Int.toNat_natCast]
    exact genQDeltaList_one_total hform hn h
  | list _ hl =>
    have : types.length ≠ 0 := by simpa using hl
    simp only [genQDeltaCoeffs, this, if_false]
    by_cases h1 : types.length = 1
    · obtain ⟨s, rfl⟩ := List.length_eq_one_iff.mp h1
      exact genQDeltaList_one_total (n := 1) hform one_pos h
    · exact genQDeltaList_total hform _ h1 hl h
  | listN l hl n hn =>
    have h0 : l.length ≠ 0 := by simpa using hl
    have h1 : ((n : ℤ) > 0) := by omega
    have h2 : ¬ ((n : ℤ) < l.length) := by omega
    simp only [genQDeltaCoeffs, h0, if_false, h1, h2, if_true, Int.toNat_natCast,
      List.getLast?_eq_getLast_of_ne_nil hl, Option.getD_some]
    by_cases h1 : (l ++ List.replicate (n - l.length) (l.getLast hl)).length = 1
    · have hn1 : n = 1 := by simp at h1; omega
      obtain ⟨s, hs⟩ := List.length_eq_one_iff.mp h1
      subst hn1
      rw [hs] at h ⊢
      exact genQDeltaList_one_total (n := 1) hform one_pos h
    · exact genQDeltaList_total hform _ h1 (by simp [hl]) h

/-- Instance: two names for three sweeps, and the stack of the three matrices. -/
example (ext : ExternalNum) : ∃ out, (genQDeltaCoeffs ext (.list ["MIN-SR-NS", "BE"]) (.int (3 : ℕ)) "N2N" true
      (PyDict.single "nodes" (.array 2 ![1 / 3, 1]))).2 = .ok out ∧
    StackOf ext ["MIN-SR-NS", "BE", "BE"] "N2N" true (PyDict.single "nodes" (.array 2 ![1 / 3, 1])) out := by
  have ht := SweepTypes.listN ["MIN-SR-NS", "BE"] (by simp) 3 (by simp)
  obtain ⟨out, h⟩ := C53_total ext _ _ _ ht "N2N" true (PyDict.single "nodes" (.array 2 ![1 / 3, 1])) (Or.inr rfl)
    ⟨2, fun i hi => match i, hi with
      | 0, _ => ⟨_, rfl⟩
      | 1, _ => ⟨_, rfl⟩
      | 2, _ => ⟨_, rfl⟩⟩
  exact ⟨out, h, C53_stack ext _ _ _ ht _ _ _ _ (Or.inr rfl) h⟩

/-- C53: a single type without number of sweeps gives one matrix, for no sweep index. -/
theorem C53_single (ext : ExternalNum) (s : String) (form : String) (dTau : Bool)
    (params : PyDict PyVal) (hform : form = "Z2N" ∨ form = "N2N") (out : QDOut) :
    (genQDeltaCoeffs ext (.str s) .none form dTau params).2 = .ok out ↔
      ∃ g A, makeQD ext s params = .ok g ∧ g.getQDelta none = .ok A ∧
        out = { coeffs := .single g.size (formValue form A),
                dTau := if dTau then some ⟨g.size, g.dTau⟩ else none } := by
  have e : (genQDeltaCoeffs ext (.str s) .none form dTau params).2 =
      (makeQD ext s params >>= fun g => g.genCoeffs (.scalar none) form dTau) := by
    unfold genQDeltaCoeffs makeQD
    dsimp only
    rw [bind_assoc]
  rw [e]
  constructor
  · intro h
    obtain ⟨g, hg, h⟩ := bind_ok h
    rw [C52_scalar g none form hform dTau] at h
    cases hA : g.getQDelta none with
    | error e => rw [hA] at h; cases h
    | ok A =>
      rw [hA] at h
      cases h
      exact ⟨g, A, hg, hA, rfl⟩
  · rintro ⟨g, A, hg, hA, rfl⟩
    rw [hg]
    change g.genCoeffs (.scalar none) form dTau = _
    rw [C52_scalar g none form hform dTau, hA]
    rfl

/-- Instance: backward Euler, one matrix. -/
example (ext : ExternalNum) : ∃ out, (genQDeltaCoeffs ext (.str "BE") .none "Z2N" false
      (PyDict.single "nodes" (.array 2 ![1 / 3, 1]))).2 = .ok out :=
  ⟨_, (C53_single ext "BE" "Z2N" false _ (Or.inl rfl) _).2 ⟨_, _, rfl, rfl, rfl⟩⟩

/-- C53: the errors: a number of sweeps that is not a positive integer, an empty list, a list longer than
the number of sweeps, and names that are not registered. -/
theorem C53_errors (ext : ExternalNum) (form : String) (dTau : Bool) (params : PyDict PyVal) :
    (∀ s : String, ∀ n : ℤ, n ≤ 0 →
      (genQDeltaCoeffs ext (.str s) (.int n) form dTau params).2 = .error .valueError) ∧
    (∀ n, (genQDeltaCoeffs ext (.list []) n form dTau params).2 = .error .assertionError) ∧
    (∀ l : List String, l ≠ [] → ∀ n : ℤ, n ≤ 0 →
      (genQDeltaCoeffs ext (.list l) (.int n) form dTau params).2 = .error .valueError) ∧
    (∀ l : List String, ∀ n : ℤ, 0 < n → n < l.length →
      (genQDeltaCoeffs ext (.list l) (.int n) form dTau params).2 = .error .assertionError) ∧
    (∀ t n types, SweepTypes t n types → (∃ s ∈ types, QDELTA_GENERATORS ext s = none) →
      (genQDeltaCoeffs ext t n form dTau params).2 = .error .valueError) ∧
    (∀ s, QDELTA_GENERATORS ext s = none →
      (genQDeltaCoeffs ext (.str s) .none form dTau params).2 = .error .valueError) := by
  have lookup : ∀ l : List String, (∃ s ∈ l, QDELTA_GENERATORS ext s = none) →
      l.mapM (lookupQDelta ext) = .error .valueError := by
    intro l
    induction l with
    | nil => simp
    | cons a l ih =>
      intro h
      rw [List.mapM_cons]
      cases ha : QDELTA_GENERATORS ext a with
      | none => simp [lookupQDelta, ha, bind, Except.bind]
      | some C =>
        have : ∃ s ∈ l, QDELTA_GENERATORS ext s = none := by
          obtain ⟨s, hs, hn⟩ := h
          rcases List.mem_cons.mp hs with rfl | hs
          · rw [ha] at hn; cases hn
          · exact ⟨s, hs, hn⟩
        rw [ih this]
        simp [lookupQDelta, ha, bind, Except.bind]
  have glist : ∀ l n, (∃ s ∈ l, QDELTA_GENERATORS ext s = none) →
      genQDeltaList ext l n form dTau params = .error .valueError := by
    intro l n h
    unfold genQDeltaList
    rw [lookup l h]
    rfl
  refine ⟨fun s n hn => ?_, fun n => ?_, fun l hl n hn => ?_, fun l n h0 hn => ?_,
    fun t n types ht h => ?_, fun s hs => ?_⟩
  · simp [genQDeltaCoeffs, not_lt.mpr hn]
  · cases n <;> rfl
  · simp [genQDeltaCoeffs, not_lt.mpr hn, hl]
  · have : l ≠ [] := by rintro rfl; simp at hn; omega
    simp [genQDeltaCoeffs, h0, hn, this]
  · cases ht with
    | str s n hn =>
      have h1 : ((n : ℤ) > 0) := by exact_mod_cast hn
      simp only [genQDeltaCoeffs, h1, if_true, Int.toNat_natCast]
      refine glist _ _ ?_
      obtain ⟨s', hs', hn'⟩ := h
      rw [List.mem_replicate] at hs'
      exact ⟨s, by simp, hs'.2 ▸ hn'⟩
    | list _ hl =>
      have : types.length ≠ 0 := by simpa using hl
      simp only [genQDeltaCoeffs, this, if_false]
      exact glist _ _ h
    | listN l hl n hn =>
      have h0 : l.length ≠ 0 := by simpa using hl
      have h1 : ((n : ℤ) > 0) := by omega
      have h2 : ¬ ((n : ℤ) < l.length) := by omega
      simp only [genQDeltaCoeffs, h0, if_false, h1, h2, if_true, Int.toNat_natCast,
        List.getLast?_eq_getLast_of_ne_nil hl, Option.getD_some]
      exact glist _ _ h
  · simp [genQDeltaCoeffs, lookupQDelta, hs, bind, Except.bind]

/-- Instance: no sweep, no name, more names than sweeps. -/
example (ext : ExternalNum) (params : PyDict PyVal) : (genQDeltaCoeffs ext (.str "BE") (.int 0) "Z2N" false params).2 = .error .valueError ∧
    (genQDeltaCoeffs ext (.list []) .none "Z2N" false params).2 = .error .assertionError ∧
    (genQDeltaCoeffs ext (.list ["BE", "LU"]) (.int 1) "Z2N" false params).2 = .error .assertionError :=
  ⟨(C53_errors ext "Z2N" false params).1 "BE" 0 le_rfl, (C53_errors ext "Z2N" false params).2.1 .none,
    (C53_errors ext "Z2N" false params).2.2.2.1 ["BE", "LU"] 1 (by norm_num) (by norm_num)⟩

/-- C53, finding: the caller's list is extended in place, so that the same call a second time with a
smaller number of sweeps fails. -/
theorem C53_list_modified_fails (ext : ExternalNum) (form : String) (dTau : Bool)
    (params : PyDict PyVal) (l : List String) (hl : l ≠ []) (n : ℕ) (hn : l.length < n) :
    ∃ l', (genQDeltaCoeffs ext (.list l) (.int n) form dTau params).1 = .list l' ∧ l' ≠ l ∧
      l'.length = n ∧
      (genQDeltaCoeffs ext (.list l') (.int l.length) form dTau params).2 = .error .assertionError := by
  have h0 : l.length ≠ 0 := by simpa using hl
  have h1 : ((n : ℤ) > 0) := by omega
  have h2 : ¬ ((n : ℤ) < l.length) := by omega
  have hlen : (l ++ List.replicate (n - l.length) (l.getLast hl)).length = n := by simp; omega
  refine ⟨l ++ List.replicate (n - l.length) (l.getLast hl), ?_, ?_, hlen, ?_⟩
  · simp only [genQDeltaCoeffs, h0, if_false, h1, h2, if_true, Int.toNat_natCast,
      List.getLast?_eq_getLast_of_ne_nil hl, Option.getD_some]
  · intro h
    have := congrArg List.length h
    omega
  · refine (C53_errors ext form dTau params).2.2.2.1 _ _ (by omega) ?_
    rw [hlen]
    exact_mod_cast hn

/-- C53: in all other cases the caller's object is left as it is. -/
theorem C53_list_kept (ext : ExternalNum) (form : String) (dTau : Bool) (params : PyDict PyVal)
    (t : QDType) (n : NSweeps) (h : ∀ (l : List String) (k : ℤ), t = .list l → n = .int k → k ≤ l.length) :
    (genQDeltaCoeffs ext t n form dTau params).1 = t := by
  cases t with
  | str s =>
    cases n with
    | none => rfl
    | int k => unfold genQDeltaCoeffs; dsimp only; split_ifs <;> rfl
    | other => rfl
  | other => cases n <;> rfl
  | list l =>
    cases n with
    | none => unfold genQDeltaCoeffs; dsimp only; split_ifs <;> rfl
    | other => unfold genQDeltaCoeffs; dsimp only; split_ifs <;> rfl
    | int k =>
      have := h l k rfl rfl
      unfold genQDeltaCoeffs
      dsimp only
      split_ifs
      · rfl
      · rfl
      · have : k.toNat - l.length = 0 := by omega
        simp [this]
      · rfl

/-- The hypotheses of `C53_total` can be met: `MIN-SR-NS` then `BE` twice. -/
example (ext : ExternalNum) : SweepTypes (.list ["MIN-SR-NS", "BE"]) (.int (3 : ℕ))
      ["MIN-SR-NS", "BE", "BE"] ∧
    SweepsOk ext ["MIN-SR-NS", "BE", "BE"] (PyDict.single "nodes" (.array 2 ![1 / 3, 1])) := by
  refine ⟨SweepTypes.listN ["MIN-SR-NS", "BE"] (by simp) 3 (by simp), 2, fun i hi => ?_⟩
  match i, hi with
  | 0, _ => exact ⟨_, rfl⟩
  | 1, _ => exact ⟨_, rfl⟩
  | 2, _ => exact ⟨_, rfl⟩

end QMat
