import Verif.Model.QDeltaCache
import Verif.Props.QDelta
import Verif.Lemmas.Collocation

/-!
# C51: the cache of the `QDelta` generators
-/

namespace QMat

open Matrix

/-- Calls that return a new array: `getQDelta` with a copy (the default), `getSDelta`, `genCoeffs` in
node-to-node form or for a list of sweeps; and writing to arrays. -/
def QDAction.Safe {n : ℕ} : QDAction n → Prop
  | .getQDelta _ copy => copy = true
  | .genCoeffs (.scalar _) form => form ≠ "Z2N"
  | _ => True

/-- What the caller sees of a returned matrix. -/
def QDState.value {n : ℕ} : PyResult ℕ × QDState n → PyResult (Matrix (Fin n) (Fin n) ℝ)
  | (.ok a, s) => .ok (s.read a)
  | (.error e, _) => .error e

/-- What the caller sees of the array returned by `genCoeffs`. -/
def QDState.coeffs {n : ℕ} : PyResult (QDRet n) × QDState n → PyResult QDArray
  | (.ok (.array a), s) => .ok (.single n (s.read a))
  | (.ok (.stack As), _) => .ok (.stack n As)
  | (.error e, _) => .error e

/-- What is needed of a class for its cache to be transparent. -/
structure QDeltaGen.Cacheable (g : QDeltaGen) : Prop where
  const : g.kDependent = false → ∀ k, g.compute k = g.compute none
  shared : ∀ k k', g.shared k = true → g.shared k' = true → g.compute k = g.compute k'

/-- The array at `a` holds `A` and the caller does not have it. -/
def QDState.Holds {n : ℕ} (s : QDState n) (known : List ℕ) (a : ℕ)
    (A : Matrix (Fin n) (Fin n) ℝ) : Prop := a ∉ known ∧ s.heap[a]? = some A

/-- Invariant: the caller's arrays exist, and cached arrays hold the computed matrices and are not
among them. -/
structure CacheInv (g : QDeltaGen) (s : QDState g.size) (known : List ℕ) : Prop where
  known_lt : ∀ a ∈ known, a < s.heap.length
  single : ∀ a, s.cache = .single a → g.kDependent = false ∧
    ∃ A, s.Holds known a A ∧ g.compute none = .ok A
  dict : ∀ es, s.cache = .dict es → g.kDependent = true ∧
    ∀ k a, (k, a) ∈ es → ∃ A, s.Holds known a A ∧ g.compute k = .ok A
  memo : ∀ a, s.memo = some a → ∃ A, s.Holds known a A ∧
    ∀ k, g.shared k = true → g.compute k = .ok A

variable {g : QDeltaGen} {s : QDState g.size} {known : List ℕ}

theorem QDState.Holds.lt {n : ℕ} {s : QDState n} {known : List ℕ} {a : ℕ}
    {A : Matrix (Fin n) (Fin n) ℝ} (h : s.Holds known a A) : a < s.heap.length :=
  (List.getElem?_eq_some_iff.mp h.2).1

theorem QDState.read_eq {n : ℕ} {s : QDState n} {a : ℕ}
    {A : Matrix (Fin n) (Fin n) ℝ} (h : s.heap[a]? = some A) : s.read a = A := by
  simp [QDState.read, List.getD_eq_getElem?_getD, h]

theorem lookup_mem {α β : Type} [BEq α] [LawfulBEq α] {l : List (α × β)} {k : α} {b : β}
    (h : l.lookup k = some b) : (k, b) ∈ l := by
  induction l with
  | nil => simp at h
  | cons p l ih =>
    obtain ⟨k', b'⟩ := p
    rw [List.lookup_cons] at h
    by_cases hk : k = k'
    · subst hk
      simp at h
      simp [h]
    · rw [beq_false_of_ne hk] at h
      exact List.mem_cons_of_mem _ (ih h)

theorem CacheInv.init (g : QDeltaGen) : CacheInv g (QDState.init g.size) [] where
  known_lt := by simp
  single := by simp [QDState.init]
  dict := by simp [QDState.init]
  memo := by simp [QDState.init]

/-- The invariant after the heap has grown and the caller was given arrays that are not cached. -/
theorem CacheInv.grow (h : CacheInv g s known) {heap' : List (Matrix (Fin g.size) (Fin g.size) ℝ)}
    {known' : List ℕ} (hh : ∀ (a : ℕ) A, s.heap[a]? = some A → heap'[a]? = some A)
    (hk : ∀ a ∈ known', a ∈ known ∨ s.heap.length ≤ a ∧ a < heap'.length)
    (hl : s.heap.length ≤ heap'.length) :
    CacheInv g { s with heap := heap' } known' := by
  have key : ∀ a A, s.Holds known a A → ({ s with heap := heap' } : QDState g.size).Holds known' a A :=
    fun a A ha => ⟨fun hm => by
      rcases hk a hm with h' | h'
      · exact ha.1 h'
      · have := ha.lt; omega, hh _ _ ha.2⟩
  refine ⟨fun a ha => ?_, fun a ha => ?_, fun es he => ?_, fun a ha => ?_⟩
  · rcases hk a ha with h' | h'
    · exact (h.known_lt a h').trans_le hl
    · exact h'.2
  · obtain ⟨h1, A, h2, h3⟩ := h.single a ha
    exact ⟨h1, A, key _ _ h2, h3⟩
  · obtain ⟨h1, h2⟩ := h.dict es he
    refine ⟨h1, fun k a hka => ?_⟩
    obtain ⟨A, h3, h4⟩ := h2 k a hka
    exact ⟨A, key _ _ h3, h4⟩
  · obtain ⟨A, h1, h2⟩ := h.memo a ha
    exact ⟨A, key _ _ h1, h2⟩

theorem CacheInv.anti (h : CacheInv g s known) {known' : List ℕ} (hk : ∀ a ∈ known', a ∈ known) :
    CacheInv g s known' :=
  h.grow (heap' := s.heap) (fun _ _ => id) (fun a ha => Or.inl (hk a ha)) le_rfl

theorem append_get {α : Type} {l : List α} {x : α} {a : ℕ} {A : α} (h : l[a]? = some A) :
    (l ++ [x])[a]? = some A := by
  rw [List.getElem?_append_left (List.getElem?_eq_some_iff.mp h).1, h]

/-- A new array handed out to the caller. -/
theorem CacheInv.alloc (h : CacheInv g s known) (A : Matrix (Fin g.size) (Fin g.size) ℝ) :
    CacheInv g (s.alloc A).2 ((s.alloc A).1 :: known) := by
  refine h.grow (fun _ _ => append_get) (fun a ha => ?_) (by simp)
  rcases List.mem_cons.mp ha with rfl | ha
  · right
    simp [QDState.alloc]
  · exact Or.inl ha

theorem alloc_get {n : ℕ} (s : QDState n) (A : Matrix (Fin n) (Fin n) ℝ) :
    (s.alloc A).2.heap[(s.alloc A).1]? = some A := by simp [QDState.alloc]

/-- The heap only grows. -/
def QDState.Extends {n : ℕ} (s s' : QDState n) : Prop :=
  ∀ (a : ℕ) A, s.heap[a]? = some A → s'.heap[a]? = some A

theorem QDState.Extends.refl {n : ℕ} (s : QDState n) : s.Extends s := fun _ _ => id

theorem QDState.Extends.trans {n : ℕ} {s s' s'' : QDState n} (h : s.Extends s')
    (h' : s'.Extends s'') : s.Extends s'' := fun a A ha => h' a A (h a A ha)

theorem extends_alloc {n : ℕ} (s : QDState n) (A : Matrix (Fin n) (Fin n) ℝ) :
    s.Extends (s.alloc A).2 := fun _ _ => append_get

/-- A call gives the expected matrix, and keeps the invariant; `fresh` calls return an array that is
not cached. -/
structure GoodCall (g : QDeltaGen) (s : QDState g.size) (known : List ℕ) (fresh : Bool)
    (v : PyResult (Matrix (Fin g.size) (Fin g.size) ℝ)) (r : PyResult ℕ × QDState g.size) : Prop where
  ext : s.Extends r.2
  inv : CacheInv g r.2 known
  error : ∀ e, v = .error e → r.1 = .error e
  ok : ∀ A, v = .ok A → ∃ a, r.1 = .ok a ∧ r.2.heap[a]? = some A ∧
    (fresh = true → CacheInv g r.2 (a :: known))

theorem GoodCall.value {fresh : Bool} {v : PyResult (Matrix (Fin g.size) (Fin g.size) ℝ)}
    {r : PyResult ℕ × QDState g.size} (h : GoodCall g s known fresh v r) : QDState.value r = v := by
  obtain ⟨r, s'⟩ := r
  cases v with
  | error e =>
    have := h.error e rfl
    simp only at this
    subst this
    rfl
  | ok A =>
    obtain ⟨a, h1, h2, -⟩ := h.ok A rfl
    simp only at h1
    subst h1
    simp only [QDState.value]
    rw [QDState.read_eq h2]

/-- `computeQDelta` creates a new array, or returns the memorised one. -/
theorem computeH_good (hg : g.Cacheable) (h : CacheInv g s known) (k : Option ℤ) :
    s.Extends (g.computeH k s).2 ∧ (g.computeH k s).2.cache = s.cache ∧
    CacheInv g (g.computeH k s).2 known ∧
    (∀ e, g.compute k = .error e → (g.computeH k s).1 = .error e) ∧
    ∀ A, g.compute k = .ok A → ∃ a, (g.computeH k s).1 = .ok a ∧ (g.computeH k s).2.Holds known a A := by
  unfold QDeltaGen.computeH
  have fresh : ∀ a ∈ known, a ≠ s.heap.length := fun a ha => (h.known_lt a ha).ne
  split_ifs with hs
  · cases hm : s.memo with
    | some a =>
      obtain ⟨A, h1, h2⟩ := h.memo a hm
      refine ⟨.refl s, rfl, h, fun e he => ?_, fun B hB => ⟨a, rfl, ?_⟩⟩
      · rw [h2 k hs] at he; cases he
      · rw [h2 k hs] at hB; cases hB; exact h1
    | none =>
      cases hc : g.compute k with
      | error e =>
        dsimp only
        refine ⟨.refl s, rfl, h, fun e' he => ?_, fun A hA => ?_⟩
        · cases he; rfl
        · cases hA
      | ok A =>
        have h' : CacheInv g (s.alloc A).2 known := (h.alloc A).anti (by simp +contextual)
        have hh : (s.alloc A).2.Holds known (s.alloc A).1 A :=
          ⟨fun hm => fresh _ hm rfl, alloc_get s A⟩
        dsimp only
        refine ⟨extends_alloc s A, rfl, ⟨h'.known_lt, h'.single, h'.dict, fun a ha => ?_⟩,
          fun e he => ?_, fun B hB => ?_⟩
        · cases ha
          exact ⟨A, hh, fun k' hk' => by rw [hg.shared k' k hk' hs, hc]⟩
        · cases he
        · cases hB
          exact ⟨_, rfl, hh⟩
  · cases hc : g.compute k with
    | error e =>
      refine ⟨.refl s, rfl, h, fun e' he => ?_, fun A hA => ?_⟩
      · cases he; rfl
      · cases hA
    | ok A =>
      have h' : CacheInv g (s.alloc A).2 known := (h.alloc A).anti (by simp +contextual)
      have hh : (s.alloc A).2.Holds known (s.alloc A).1 A :=
        ⟨fun hm => fresh _ hm rfl, alloc_get s A⟩
      refine ⟨extends_alloc s A, rfl, h', fun e he => ?_, fun B hB => ?_⟩
      · cases he
      · cases hB
        exact ⟨_, rfl, hh⟩

theorem retH_good (h : CacheInv g s known) {a : ℕ} {A : Matrix (Fin g.size) (Fin g.size) ℝ}
    (ha : s.Holds known a A) (copy : Bool) :
    GoodCall g s known copy (.ok A) (QDeltaGen.retH copy a s) := by
  unfold QDeltaGen.retH
  rw [QDState.read_eq ha.2]
  cases copy with
  | false =>
    exact ⟨.refl s, h, fun e he => (by cases he), fun B hB => by
      cases hB; exact ⟨a, rfl, ha.2, fun h => by cases h⟩⟩
  | true =>
    exact ⟨extends_alloc s A, (h.alloc A).anti (by simp +contextual), fun e he => (by cases he),
      fun B hB => by cases hB; exact ⟨_, rfl, alloc_get s A, fun _ => h.alloc A⟩⟩

theorem GoodCall.of_extends {s' : QDState g.size} {fresh : Bool}
    {v : PyResult (Matrix (Fin g.size) (Fin g.size) ℝ)} {r : PyResult ℕ × QDState g.size}
    (h : GoodCall g s' known fresh v r) (he : s.Extends s') : GoodCall g s known fresh v r :=
  ⟨he.trans h.ext, h.inv, h.error, h.ok⟩

theorem getQDeltaH_good (hg : g.Cacheable) (h : CacheInv g s known) (k : Option ℤ) (copy : Bool) :
    GoodCall g s known copy (g.compute k) (g.getQDeltaH k copy s) := by
  obtain ⟨c1, c2, c3, c4, c5⟩ := computeH_good hg h k
  unfold QDeltaGen.getQDeltaH
  generalize g.computeH k s = r at c1 c2 c3 c4 c5 ⊢
  obtain ⟨r, s'⟩ := r
  simp only at c1 c2 c3 c4 c5
  -- a computed array that is stored
  have store : ∀ (a : ℕ) (A : Matrix (Fin g.size) (Fin g.size) ℝ) (c : QDCache),
      g.compute k = .ok A → s'.Holds known a A →
      (∀ b, c = .single b → b = a ∧ g.kDependent = false) →
      (∀ es, c = .dict es → g.kDependent = true ∧ ∀ k' b, (k', b) ∈ es → (k', b) = (k, a) ∨
        ∃ es', s.cache = .dict es' ∧ (k', b) ∈ es') →
      CacheInv g { s' with cache := c } known := by
    intro a A c hA ha h1 h2
    refine ⟨c3.known_lt, fun b hb => ?_, fun es hes => ?_, c3.memo⟩
    · obtain ⟨rfl, hk⟩ := h1 b hb
      exact ⟨hk, A, ha, by rw [← hg.const hk k, hA]⟩
    · obtain ⟨hk, h2⟩ := h2 es hes
      refine ⟨hk, fun k' b hb => ?_⟩
      rcases h2 k' b hb with h' | ⟨es', he', hm⟩
      · cases h'
        exact ⟨A, ha, hA⟩
      · exact (c3.dict es' (c2.trans he')).2 k' b hm
  cases hc : s.cache with
  | unset =>
    simp only [QDCache.get]
    cases hv : g.compute k with
    | error e =>
      have := c4 e hv
      subst this
      exact ⟨c1, c3, fun e' he => (by cases he; rfl), fun A hA => (by cases hA)⟩
    | ok A =>
      obtain ⟨a, h1, h2⟩ := c5 A hv
      subst h1
      refine GoodCall.of_extends (s' := { s' with cache :=
        (if g.kDependent then QDCache.dict ([(k, a)]) else QDCache.single a) })
        (retH_good (s := { s' with cache :=
        (if g.kDependent then QDCache.dict ([(k, a)]) else QDCache.single a) }) ?_ h2 copy) c1
      refine store a A _ hv h2 (fun b hb => ?_) (fun es hes => ?_)
      · cases hk : g.kDependent <;> simp_all
      · cases hk : g.kDependent <;> simp_all
        subst hes
        intro k' b hb
        simpa using hb
  | single a =>
    obtain ⟨hk, A, hA, hcomp⟩ := h.single a hc
    simp only [QDCache.get, hk, Bool.false_eq_true, if_false]
    rw [hg.const hk k, hcomp]
    exact retH_good h hA copy
  | dict es =>
    obtain ⟨hk, hes⟩ := h.dict es hc
    simp only [QDCache.get, hk, if_true]
    cases hl : es.lookup k with
    | some a =>
      obtain ⟨A, hA, hcomp⟩ := hes k a (lookup_mem hl)
      rw [hcomp]
      exact retH_good h hA copy
    | none =>
      simp only
      cases hv : g.compute k with
      | error e =>
        have := c4 e hv
        subst this
        exact ⟨c1, c3, fun e' he => (by cases he; rfl), fun A hA => (by cases hA)⟩
      | ok A =>
        obtain ⟨a, h1, h2⟩ := c5 A hv
        subst h1
        refine GoodCall.of_extends (s' := { s' with cache := s'.cache.insert k a })
          (retH_good (s := { s' with cache := s'.cache.insert k a }) ?_ h2 copy) c1
        rw [c2, hc]
        refine store a A _ hv h2 (fun b hb => by cases hb) (fun es' hes' => ?_)
        cases hes'
        refine ⟨hk, fun k' b hb => ?_⟩
        rcases List.mem_cons.mp hb with h' | h'
        · exact Or.inl h'
        · exact Or.inr ⟨es, hc, h'⟩

theorem getSDeltaH_good (hg : g.Cacheable) (h : CacheInv g s known) (k : Option ℤ) :
    GoodCall g s known true (g.getSDelta k) (g.getSDeltaH k s) := by
  have hq := getQDeltaH_good hg h k true
  unfold QDeltaGen.getSDeltaH QDeltaGen.getSDelta QDeltaGen.getQDelta
  generalize g.getQDeltaH k true s = r at hq ⊢
  obtain ⟨r, s'⟩ := r
  cases hv : g.compute k with
  | error e =>
    have := hq.error e hv
    simp only at this
    subst this
    exact ⟨hq.ext, hq.inv, fun e' he => (by cases he; rfl), fun A hA => (by cases hA)⟩
  | ok A =>
    obtain ⟨a, h1, h2, h3⟩ := hq.ok A hv
    simp only at h1 h2
    subst h1
    simp only [QDState.read_eq h2]
    refine ⟨hq.ext.trans (extends_alloc _ _), (hq.inv.alloc _).anti (by simp +contextual),
      fun e he => (by cases he), fun B hB => ?_⟩
    cases hB
    exact ⟨_, rfl, alloc_get _ _, fun _ => hq.inv.alloc _⟩

theorem mapH_good {val : Option ℤ → PyResult (Matrix (Fin g.size) (Fin g.size) ℝ)}
    {gen : Option ℤ → QDState g.size → PyResult ℕ × QDState g.size} {fresh : Bool}
    (hgen : ∀ s, CacheInv g s known → ∀ k, GoodCall g s known fresh (val k) (gen k s))
    (ks : List (Option ℤ)) : ∀ s, CacheInv g s known →
      s.Extends (QDeltaGen.mapH gen ks s).2 ∧ CacheInv g (QDeltaGen.mapH gen ks s).2 known ∧
      (∀ e, ks.mapM val = .error e → (QDeltaGen.mapH gen ks s).1 = .error e) ∧
      ∀ As, ks.mapM val = .ok As → ∃ as, (QDeltaGen.mapH gen ks s).1 = .ok as ∧
        as.map (QDeltaGen.mapH gen ks s).2.read = As ∧
        ∀ a ∈ as, a < (QDeltaGen.mapH gen ks s).2.heap.length := by
  induction ks with
  | nil =>
    intro s h
    refine ⟨.refl s, h, fun e he => (by cases he), fun As hA => ?_⟩
    cases hA
    exact ⟨[], rfl, rfl, by simp⟩
  | cons k ks ih =>
    intro s h
    have hk := hgen s h k
    unfold QDeltaGen.mapH
    generalize gen k s = r at hk ⊢
    obtain ⟨r, s'⟩ := r
    rw [List.mapM_cons]
    cases hv : val k with
    | error e =>
      have := hk.error e hv
      simp only at this
      subst this
      exact ⟨hk.ext, hk.inv, fun e' he => (by cases he; rfl), fun A hA => (by cases hA)⟩
    | ok A =>
      obtain ⟨a, h1, h2, -⟩ := hk.ok A hv
      simp only at h1 h2
      subst h1
      simp only
      obtain ⟨i1, i2, i3, i4⟩ := ih s' hk.inv
      generalize QDeltaGen.mapH gen ks s' = r' at i1 i2 i3 i4 ⊢
      obtain ⟨r', s''⟩ := r'
      simp only at i1 i2 i3 i4
      cases hvs : ks.mapM val with
      | error e =>
        have := i3 e hvs
        subst this
        exact ⟨hk.ext.trans i1, i2, fun e' he => (by cases he; rfl), fun A hA => (by cases hA)⟩
      | ok As =>
        obtain ⟨as, j1, j2, j3⟩ := i4 As hvs
        subst j1
        refine ⟨hk.ext.trans i1, i2, fun e he => (by cases he), fun Bs hB => ?_⟩
        cases hB
        have h2' := i1 _ _ h2
        refine ⟨_, rfl, ?_, ?_⟩
        · rw [List.map_cons, QDState.read_eq h2', j2]
        · intro b hb
          rcases List.mem_cons.mp hb with rfl | hb
          · exact (List.getElem?_eq_some_iff.mp h2').1
          · exact j3 b hb

/-- `genCoeffs` on an object is `genCoeffs` of the value model. -/
theorem genCoeffsH_good (hg : g.Cacheable) (h : CacheInv g s known) (k : KArg) (form : String) :
    QDState.coeffs (g.genCoeffsH k form s) = (g.genCoeffs k form).map QDOut.coeffs ∧
    CacheInv g (g.genCoeffsH k form s).2 known ∧
    ∀ a, (QDAction.genCoeffs k form : QDAction g.size).Safe →
      (g.genCoeffsH k form s).1 = .ok (.array a) → CacheInv g (g.genCoeffsH k form s).2 (a :: known) := by
  have key : ∀ (gen : Option ℤ → QDState g.size → PyResult ℕ × QDState g.size) (fresh : Bool)
      (val : Option ℤ → PyResult (Matrix (Fin g.size) (Fin g.size) ℝ)),
      g.formGenH form = .ok gen → g.formGen form = .ok val →
      (form ≠ "Z2N" → fresh = true) →
      (∀ s, CacheInv g s known → ∀ k, GoodCall g s known fresh (val k) (gen k s)) →
      QDState.coeffs (g.genCoeffsH k form s) = (g.genCoeffs k form).map QDOut.coeffs ∧
      CacheInv g (g.genCoeffsH k form s).2 known ∧
      ∀ a, (QDAction.genCoeffs k form : QDAction g.size).Safe →
        (g.genCoeffsH k form s).1 = .ok (.array a) →
        CacheInv g (g.genCoeffsH k form s).2 (a :: known) := by
    intro gen fresh val h1 h2 h3 hgen
    unfold QDeltaGen.genCoeffsH QDeltaGen.genCoeffs
    simp only [h1, h2]
    cases k with
    | list ks =>
      obtain ⟨-, i2, i3, i4⟩ := mapH_good hgen ks s h
      dsimp only
      generalize QDeltaGen.mapH gen ks s = r at i2 i3 i4 ⊢
      obtain ⟨r, s'⟩ := r
      simp only at i2 i3 i4
      cases hv : ks.mapM val with
      | error e =>
        have := i3 e hv
        subst this
        simp only [bind, Except.bind, hv]
        exact ⟨rfl, i2, fun a _ ha => by cases ha⟩
      | ok As =>
        obtain ⟨as, j1, j2, -⟩ := i4 As hv
        subst j1
        simp only [bind, Except.bind, pure, Except.pure, hv, j2]
        exact ⟨rfl, i2, fun a _ ha => by cases ha⟩
    | scalar k =>
      have hk := hgen s h k
      dsimp only
      generalize gen k s = r at hk ⊢
      have hval := hk.value
      obtain ⟨r, s'⟩ := r
      cases hv : val k with
      | error e =>
        have := hk.error e hv
        simp only at this
        subst this
        simp only [bind, Except.bind, hv]
        exact ⟨rfl, hk.inv, fun a _ ha => by cases ha⟩
      | ok A =>
        obtain ⟨a, j1, j2, j3⟩ := hk.ok A hv
        simp only at j1 j2
        subst j1
        simp only [bind, Except.bind, pure, Except.pure, hv]
        refine ⟨?_, hk.inv, fun b hs hb => ?_⟩
        · simp only [QDState.coeffs, QDState.read_eq j2]
          rfl
        · cases hb
          exact j3 (h3 hs)
  by_cases f1 : form = "Z2N"
  · refine key (fun k s => g.getQDeltaH k false s) false g.getQDelta ?_ ?_ ?_ ?_
    · simp [QDeltaGen.formGenH, f1]
    · simp [QDeltaGen.formGen, f1]
    · exact fun h => absurd f1 h
    · exact fun s hs k => getQDeltaH_good hg hs k false
  · by_cases f2 : form = "N2N"
    · refine key g.getSDeltaH true g.getSDelta ?_ ?_ ?_ ?_
      · simp [QDeltaGen.formGenH, f2]
      · simp [QDeltaGen.formGen, f2]
      · exact fun _ => rfl
      · exact fun s hs k => getSDeltaH_good hg hs k
    · have e1 : g.formGenH form = .error .valueError := by simp [QDeltaGen.formGenH, f1, f2]
      have e2 : g.formGen form = .error .valueError := by simp [QDeltaGen.formGen, f1, f2]
      unfold QDeltaGen.genCoeffsH QDeltaGen.genCoeffs
      simp only [e1, e2]
      exact ⟨rfl, h, fun a _ ha => by cases ha⟩

/-- The invariant holds after every history of safe calls and writes. -/
theorem history_inv (hg : g.Cacheable) (h : List (QDAction g.size)) (hs : ∀ a ∈ h, a.Safe) :
    CacheInv g (g.history h).state (g.history h).known := by
  unfold QDeltaGen.history
  have key : ∀ (h : List (QDAction g.size)) (S : QDSession g.size), (∀ a ∈ h, a.Safe) →
      CacheInv g S.state S.known →
      CacheInv g (h.foldl g.act S).state (h.foldl g.act S).known := by
    intro h
    induction h with
    | nil => intro S _ hS; exact hS
    | cons act h ih =>
      intro S hs hS
      rw [List.foldl_cons]
      refine ih _ (fun a ha => hs a (by simp [ha])) ?_
      have hsafe := hs act (by simp)
      have after : ∀ v (r : PyResult ℕ × QDState g.size), GoodCall g S.state S.known true v r →
          CacheInv g (QDSession.after S.known r).state (QDSession.after S.known r).known := by
        rintro v ⟨r, s'⟩ hr
        cases r with
        | error e => exact hr.inv
        | ok a =>
          cases v with
          | error e =>
            have := hr.error e rfl
            cases this
          | ok A =>
            obtain ⟨a', h1, h2, h3⟩ := hr.ok A rfl
            cases h1
            exact h3 rfl
      cases act with
      | getQDelta k copy =>
        change copy = true at hsafe
        subst hsafe
        exact after _ _ (getQDeltaH_good hg hS k true)
      | getSDelta k => exact after _ _ (getSDeltaH_good hg hS k)
      | genCoeffs k form =>
        obtain ⟨-, h2, h3⟩ := genCoeffsH_good hg hS k form
        unfold QDeltaGen.act
        dsimp only
        generalize hr : g.genCoeffsH k form S.state = r at h2 h3 ⊢
        obtain ⟨r, s'⟩ := r
        rcases r with e | a | As
        · exact h2
        · exact h3 a hsafe rfl
        · exact h2
      | write a A =>
        unfold QDeltaGen.act
        dsimp only
        split_ifs with ha
        · have key : ∀ b B, S.state.Holds S.known b B → (S.state.write a A).Holds S.known b B := by
            intro b B hb
            refine ⟨hb.1, ?_⟩
            have hne : a ≠ b := fun h => hb.1 (h ▸ ha)
            simp [QDState.write, List.getElem?_set_ne hne, hb.2]
          refine ⟨fun b hb => ?_, fun b hb => ?_, fun es he => ?_, fun b hb => ?_⟩
          · simpa [QDState.write] using hS.known_lt b hb
          · obtain ⟨h1, A', h2, h3⟩ := hS.single b hb
            exact ⟨h1, A', key _ _ h2, h3⟩
          · obtain ⟨h1, h2⟩ := hS.dict es he
            refine ⟨h1, fun k b hkb => ?_⟩
            obtain ⟨A', h3, h4⟩ := h2 k b hkb
            exact ⟨A', key _ _ h3, h4⟩
          · obtain ⟨A', h1, h2⟩ := hS.memo b hb
            exact ⟨A', key _ _ h1, h2⟩
        · exact hS
  exact key h _ hs (CacheInv.init g)

/-- Every registered class can be cached. -/
theorem cacheable_registered (ext : ExternalNum) (C : QDClass) (hC : C ∈ qDeltaClasses ext)
    (args : List PyVal) (params : PyDict PyVal) (g : QDeltaGen) (hg : C.call args params = .ok g) :
    g.Cacheable := by
  refine ⟨(C50_sweep_index ext C hC args params g hg).2.2, ?_⟩
  obtain ⟨d, hd, hg⟩ := bind_ok hg
  simp only [qDeltaClasses, List.mem_cons, List.not_mem_nil, or_false] at hC
  rcases hC with rfl | rfl | rfl | rfl | rfl | rfl | rfl | rfl | rfl | rfl | rfl | rfl | rfl | rfl |
    rfl | rfl | rfl | rfl | rfl | rfl | rfl | rfl | rfl | rfl | rfl | rfl
  all_goals try (obtain ⟨n, Q, -, rfl⟩ := classQ_init hg; simp)
  all_goals try (obtain ⟨n, nt, qt, -, -, -, rfl⟩ := classTable_init hg; simp)
  all_goals try (obtain ⟨n, v, tl, t, -, -, -, rfl⟩ := classTime_init hg; simp)
  all_goals try (obtain ⟨n, v, -, rfl⟩ := classNodes_init hg; simp)
  · obtain ⟨n, nt, qt, c, -, -, -, -, rfl⟩ := classMINSRS_init hg; simp
  · obtain ⟨n, nt, qt, c, -, -, -, -, rfl⟩ := classMINSRFLEX_init hg
    have key : ∀ k : Option ℤ, k.getD 1 > n →
        computeMINSRFLEX ext n nt qt c.nodes k = computeMINSRS ext n nt qt := by
      intro k hk
      have h1 : ¬ k.getD 1 < 1 := by
        have : (0 : ℤ) ≤ n := by positivity
        omega
      unfold computeMINSRFLEX checkK
      cases k with
      | none =>
        simp only [Option.getD_none] at hk h1 ⊢
        simp [bind, Except.bind, pure, Except.pure]
        intro h; omega
      | some k =>
        simp only [Option.getD_some] at hk h1 ⊢
        simp [bind, Except.bind, pure, Except.pure, h1]
        intro h; omega
    intro k k' hk hk'
    simp only [decide_eq_true_eq] at hk hk'
    change computeMINSRFLEX ext n nt qt c.nodes k = computeMINSRFLEX ext n nt qt c.nodes k'
    rw [key k hk, key k' hk']

/-- C51: whatever was called before on the object (with new arrays returned, which is the default of
`getQDelta`) and whatever was written to the arrays returned before, `getQDelta`, `getSDelta` and
`genCoeffs` give the coefficients of the class. -/
theorem C51_history (ext : ExternalNum) (C : QDClass) (hC : C ∈ qDeltaClasses ext)
    (args : List PyVal) (params : PyDict PyVal) (g : QDeltaGen) (hg : C.call args params = .ok g)
    (h : List (QDAction g.size)) (hs : ∀ a ∈ h, a.Safe) :
    (∀ k copy, QDState.value (g.getQDeltaH k copy (g.history h).state) = g.getQDelta k) ∧
    (∀ k, QDState.value (g.getSDeltaH k (g.history h).state) = g.getSDelta k) ∧
    (∀ k form, QDState.coeffs (g.genCoeffsH k form (g.history h).state) =
      (g.genCoeffs k form).map QDOut.coeffs) := by
  have hc := cacheable_registered ext C hC args params g hg
  have hi := history_inv hc h hs
  exact ⟨fun k copy => (getQDeltaH_good hc hi k copy).value, fun k => (getSDeltaH_good hc hi k).value,
    fun k form => (genCoeffsH_good hc hi k form).1⟩

/-- Instance: the calls of a program that writes to the results of its own. -/
example (ext : ExternalNum) (B : Matrix (Fin 2) (Fin 2) ℝ) : ∃ (C : QDClass) (g : QDeltaGen),
    C ∈ qDeltaClasses ext ∧ C.call [] (PyDict.single "nodes" (.array 2 ![1 / 3, 1])) = .ok g ∧
    ∃ h : List (QDAction g.size), h.length = 4 ∧
      ∀ k, QDState.value (g.getSDeltaH k (g.history h).state) = g.getSDelta k := by
  let C : QDClass := classNodes "Jumper" ["JUMPER", "FB"] true fun v k => computeJumper v k
  obtain ⟨g, hg⟩ : ∃ g, C.call [] (PyDict.single "nodes" (.array 2 ![1 / 3, 1])) = .ok g := ⟨_, rfl⟩
  have hC : C ∈ qDeltaClasses ext := by simp [qDeltaClasses, C]
  exact ⟨C, g, hC, hg, [.getQDelta none true, .write 1 0, .genCoeffs (.list [some 1, some 2]) "Z2N", .write 3 1], rfl,
    (C51_history ext C hC [] _ g hg _ (by simp [QDAction.Safe])).2.1⟩

/-- C51 does not extend to calls without copy, which are what `genCoeffs(k)` does for a single sweep:
the caller gets the cached array, and what is written to it is what every later call returns. -/
theorem C51_genCoeffs_fails (g : QDeltaGen) (k : Option ℤ) (A B : Matrix (Fin g.size) (Fin g.size) ℝ)
    (hA : g.compute k = .ok A) : ∃ a,
    (g.genCoeffsH (.scalar k) "Z2N" (QDState.init g.size)).1 = .ok (.array a) ∧
    QDState.value (g.getQDeltaH k true
      (g.history [.genCoeffs (.scalar k) "Z2N", .write a B]).state) = .ok B := by
  refine ⟨0, ?_, ?_⟩
  · cases hs : g.shared k <;>
    simp [QDeltaGen.genCoeffsH, QDeltaGen.formGenH, QDeltaGen.getQDeltaH, QDState.init, QDCache.get,
      QDeltaGen.computeH, hs, hA, QDeltaGen.retH, QDState.alloc]
  · cases hs : g.shared k <;> cases hk : g.kDependent <;>
    simp [QDeltaGen.history, QDeltaGen.act, QDeltaGen.genCoeffsH, QDeltaGen.formGenH,
      QDeltaGen.getQDeltaH, QDState.init, QDCache.get,
      QDeltaGen.computeH, hs, hA, QDeltaGen.retH, QDState.alloc, hk, QDState.write, QDState.value,
      QDState.read]

/-- The array that `MIN_SR_FLEX` shares between all sweeps `k > M` spreads such a write: what the caller
writes to `genCoeffs(k)` is what `getQDelta(k')` returns for every other `k' > M`. -/
theorem C51_shared_fails (g : QDeltaGen) (hk : g.kDependent = true) (k k' : Option ℤ) (hkk : k' ≠ k)
    (h : g.shared k = true) (h' : g.shared k' = true) (A B : Matrix (Fin g.size) (Fin g.size) ℝ)
    (hA : g.compute k = .ok A) : ∃ a,
    (g.genCoeffsH (.scalar k) "Z2N" (QDState.init g.size)).1 = .ok (.array a) ∧
    QDState.value (g.getQDeltaH k' true
      (g.history [.genCoeffs (.scalar k) "Z2N", .write a B]).state) = .ok B := by
  refine ⟨0, ?_, ?_⟩
  · simp [QDeltaGen.genCoeffsH, QDeltaGen.formGenH, QDeltaGen.getQDeltaH, QDState.init, QDCache.get,
      QDeltaGen.computeH, h, hA, QDeltaGen.retH, QDState.alloc]
  · have hb : (k' == k) = false := beq_false_of_ne hkk
    simp [QDeltaGen.history, QDeltaGen.act, QDeltaGen.genCoeffsH, QDeltaGen.formGenH,
      QDeltaGen.getQDeltaH, QDState.init, QDCache.get, List.lookup_cons, hb, QDCache.insert,
      QDeltaGen.computeH, h, h', hA, QDeltaGen.retH, QDState.alloc, hk, QDState.write, QDState.value,
      QDState.read]

/-- `MIN_SR_FLEX` with two nodes shares the sweeps `3` and `4`. -/
example (ext : ExternalNum) : ∃ C ∈ qDeltaClasses ext, ∃ g, C.call [] (fun n =>
    if n = "nNodes" then some (.int 2) else if n = "nodeType" then some (.str "EQUID")
    else if n = "quadType" then some (.str "LOBATTO") else none) = .ok g ∧
    g.kDependent = true ∧ g.shared (some 3) = true ∧ g.shared (some 4) = true := by
  obtain ⟨c, hc⟩ := collocation_new_ok (M := 2) (nt := "EQUID") (qt := "LOBATTO") (by decide)
    (by decide) ⟨by decide, by decide⟩ 0 1
  refine ⟨classMINSRFLEX ext, (by simp [qDeltaClasses]), (⟨2, true,
    computeMINSRFLEX ext 2 "EQUID" "LOBATTO" c.nodes, fun k => k.getD 1 > 2, 0⟩ : QDeltaGen), ?_, ?_⟩
  · simp [QDClass.call, useQGen, classMINSRFLEX, bind, Except.bind, pure, Except.pure, paramColl,
      PyDict.update, PyDict.erase, dictZip, hc]
  · simp

/-- A history: two calls, and writes to what they returned. -/
example (g : QDeltaGen) (B : Matrix (Fin g.size) (Fin g.size) ℝ) :
    ∀ a ∈ ([.getQDelta none true, .write 1 B, .genCoeffs (.list [some 1, some 2]) "Z2N",
      .getSDelta (some 3), .write 3 B] : List (QDAction g.size)), a.Safe := by
  simp [QDAction.Safe]

end QMat
