import Verif.Model.GenQ
import Verif.Props.Collocation
import Verif.Props.Sparse
import Verif.Props.Padding

/-!
# C37, C70: `genQCoeffs`, `getInstance`, and the identity of the returned arrays
-/

namespace QMat

open Matrix

/-! ## Lookup -/

theorem q_keys_nodup :
    ("Collocation" :: "coll" :: Tables.rkSchemes.flatMap fun T => T.name :: T.aliases).Nodup := by
  decide +kernel

theorem rk_names_nodup : (Tables.rkSchemes.map fun T => T.name).Nodup := by
  decide +kernel

theorem find_key {k : String} {T : RKTable} : ∀ l : List RKTable,
    (l.flatMap fun T => T.name :: T.aliases).Nodup → T ∈ l → (k = T.name ∨ k ∈ T.aliases) →
    l.find? (fun T => k = T.name ∨ k ∈ T.aliases) = some T := by
  intro l
  induction l with
  | nil => simp
  | cons a l ih =>
    intro hnd hmem hk
    rw [List.flatMap_cons, List.nodup_append] at hnd
    rcases List.mem_cons.mp hmem with rfl | hmem
    · simp [hk]
    · have hkl : k ∈ l.flatMap fun T => T.name :: T.aliases :=
        List.mem_flatMap.mpr ⟨T, hmem, by simpa using hk⟩
      have hka : ¬ (k = a.name ∨ k ∈ a.aliases) := fun h =>
        hnd.2.2 k (by simpa using h) k hkl rfl
      rw [List.find?_cons]
      simp only [hka, decide_false]
      exact ih hnd.2.1 hmem hk

theorem Q_GENERATORS_rk {T : RKTable} (hT : T ∈ Tables.rkSchemes) {k : String}
    (hk : k = T.name ∨ k ∈ T.aliases) : Q_GENERATORS k = some (.rk T) := by
  have hnd := q_keys_nodup
  have hkl : k ∈ Tables.rkSchemes.flatMap fun T => T.name :: T.aliases :=
    List.mem_flatMap.mpr ⟨T, hT, by simpa using hk⟩
  rw [List.nodup_cons, List.nodup_cons] at hnd
  unfold Q_GENERATORS
  rw [if_neg, find_key _ hnd.2.2 hT hk]
  · rfl
  · rintro (rfl | rfl)
    · exact hnd.1 (List.mem_cons_of_mem _ hkl)
    · exact hnd.2.1 hkl

theorem Q_GENERATORS_cases {k : String} {G : QClass} (h : Q_GENERATORS k = some G) :
    (G = .coll ∧ (k = "Collocation" ∨ k = "coll")) ∨
    ∃ T ∈ Tables.rkSchemes, G = .rk T ∧ (k = T.name ∨ k ∈ T.aliases) := by
  unfold Q_GENERATORS at h
  split_ifs at h with hc
  · cases h
    exact Or.inl ⟨rfl, hc⟩
  · rw [Option.map_eq_some_iff] at h
    obtain ⟨T, hT, rfl⟩ := h
    have := List.find?_some hT
    exact Or.inr ⟨T, List.mem_of_find?_eq_some hT, rfl, by simpa using this⟩

/-- C37: a name that is not a name or alias of a registered class is a `ValueError`, whatever the other
arguments. -/
theorem C37_unknown (qType form : String) (h e : Bool) (params : PyDict PyVal)
    (hc : qType ≠ "Collocation" ∧ qType ≠ "coll")
    (hr : ∀ T ∈ Tables.rkSchemes, qType ≠ T.name ∧ qType ∉ T.aliases) :
    genQCoeffs qType form h e params = .error .valueError := by
  have : Q_GENERATORS qType = none := by
    cases hG : Q_GENERATORS qType with
    | none => rfl
    | some G =>
      rcases Q_GENERATORS_cases hG with ⟨-, h⟩ | ⟨T, hT, -, h⟩
      · rcases h with h | h
        · exact absurd h hc.1
        · exact absurd h hc.2
      · rcases h with h | h
        · exact absurd h (hr T hT).1
        · exact absurd h (hr T hT).2
  unfold genQCoeffs
  rw [this]
  rfl

example : genQCoeffs "RK5" = .error .valueError :=
  C37_unknown _ _ _ _ _ (by decide) (by decide +kernel)

/-- C37: what the constructor raises comes first, then an unknown form is a `ValueError`. -/
theorem C37_errors (qType form : String) (h e : Bool) (params : PyDict PyVal) (G : QClass)
    (hG : Q_GENERATORS qType = some G) :
    (∀ err, G.call params = .error err → genQCoeffs qType form h e params = .error err) ∧
    (∀ g, G.call params = .ok g → form ≠ "Z2N" → form ≠ "N2N" →
      genQCoeffs qType form h e params = .error .valueError) := by
  constructor
  · intro err herr
    unfold genQCoeffs
    simp only [hG, herr, bind, Except.bind]
  · intro g hg h1 h2
    unfold genQCoeffs QGenerator.genCoeffs
    simp only [hG, hg, bind, Except.bind, if_neg h1, if_neg h2]
    rfl

/-! ## The parts of the result -/

/-- What `genCoeffs` returns, part by part. -/
theorem genCoeffs_parts {M : ℕ} (g : QGenerator M) (form : String) (h e : Bool) (out : QCoeffs M)
    (hout : g.genCoeffs form h e = .ok out) :
    out.nodes = g.nodes ∧ out.weights = g.weights ∧
    ((form = "Z2N" ∧ out.mat = g.Q) ∨ (form = "N2N" ∧ g.S = .ok out.mat)) ∧
    (e = false → out.weights2 = none) ∧
    (e = true → ∃ w, g.weightsEmbedded = .ok w ∧ ∃ hw : w.1 = M,
      out.weights2 = some fun i => w.2 (Fin.cast hw.symm i)) ∧
    (h = false → out.hCoeffs = none) ∧
    (h = true → ∃ v, g.hCoeffs = .ok v ∧ out.hCoeffs = some v) := by
  have hform : form = "Z2N" ∨ form = "N2N" := by
    by_contra hc
    rw [not_or] at hc
    unfold QGenerator.genCoeffs at hout
    simp [if_neg hc.1, if_neg hc.2, bind, Except.bind, throw, throwThe, MonadExceptOf.throw] at hout
  unfold QGenerator.genCoeffs at hout
  rcases hform with rfl | rfl
  · rcases e with _ | _ <;> rcases h with _ | _ <;>
      simp only [bind, Except.bind, pure, Except.pure, if_true, Bool.false_eq_true, if_false] at hout
    · cases hout
      simp
    · cases hh : g.hCoeffs with
      | error err => simp [hh] at hout
      | ok v => simp only [hh] at hout; cases hout; simp
    · cases hw : g.weightsEmbedded with
      | error err => simp [hw] at hout
      | ok w =>
        by_cases hs : w.1 = M
        · simp only [hw, npVstackSnd, dif_pos hs] at hout
          cases hout
          simp [hs]
        · simp [hw, npVstackSnd, dif_neg hs] at hout
    · cases hw : g.weightsEmbedded with
      | error err => simp [hw] at hout
      | ok w =>
        by_cases hs : w.1 = M
        · cases hh : g.hCoeffs with
          | error err => simp [hw, npVstackSnd, dif_pos hs, hh] at hout
          | ok v =>
            simp only [hw, npVstackSnd, dif_pos hs, hh] at hout
            cases hout
            simp [hs]
        · simp [hw, npVstackSnd, dif_neg hs] at hout
  · cases hS : g.S with
    | error err => simp [hS, bind, Except.bind] at hout
    | ok S =>
    rcases e with _ | _ <;> rcases h with _ | _ <;>
      simp only [bind, Except.bind, pure, Except.pure, if_true, Bool.false_eq_true, if_false, hS,
        if_neg (show ¬ "N2N" = "Z2N" by decide)] at hout
    · cases hout
      simp
    · cases hh : g.hCoeffs with
      | error err => simp [hh] at hout
      | ok v => simp only [hh] at hout; cases hout; simp
    · cases hw : g.weightsEmbedded with
      | error err => simp [hw] at hout
      | ok w =>
        by_cases hs : w.1 = M
        · simp only [hw, npVstackSnd, dif_pos hs] at hout
          cases hout
          simp [hs]
        · simp [hw, npVstackSnd, dif_neg hs] at hout
    · cases hw : g.weightsEmbedded with
      | error err => simp [hw] at hout
      | ok w =>
        by_cases hs : w.1 = M
        · cases hh : g.hCoeffs with
          | error err => simp [hw, npVstackSnd, dif_pos hs, hh] at hout
          | ok v =>
            simp only [hw, npVstackSnd, dif_pos hs, hh] at hout
            cases hout
            simp [hs]
        · simp [hw, npVstackSnd, dif_neg hs] at hout

/-- The converse: the parts that exist are returned. -/
theorem genCoeffs_total {M : ℕ} (g : QGenerator M) (form : String) (h e : Bool)
    (S : Matrix (Fin M) (Fin M) ℝ) (hform : form = "Z2N" ∨ form = "N2N") (hS : g.S = .ok S)
    (he : e = true → ∃ w, g.weightsEmbedded = .ok w ∧ w.1 = M)
    (hh : h = true → ∃ v, g.hCoeffs = .ok v) : ∃ out, g.genCoeffs form h e = .ok out := by
  unfold QGenerator.genCoeffs
  rcases hform with rfl | rfl <;> rcases e with _ | _ <;> rcases h with _ | _ <;>
    simp only [bind, Except.bind, pure, Except.pure, if_true, Bool.false_eq_true, if_false, hS,
      if_neg (show ¬ "N2N" = "Z2N" by decide)]
  all_goals first
    | exact ⟨_, rfl⟩
    | (obtain ⟨v, hv⟩ := hh rfl
       simp only [hv]
       exact ⟨_, rfl⟩)
    | (obtain ⟨w, hw, hs⟩ := he rfl
       simp only [hw, npVstackSnd, dif_pos hs]
       exact ⟨_, rfl⟩)
    | (obtain ⟨v, hv⟩ := hh rfl
       obtain ⟨w, hw, hs⟩ := he rfl
       simp only [hw, npVstackSnd, dif_pos hs, hv]
       exact ⟨_, rfl⟩)

theorem genCoeffs_noEmbedded {M : ℕ} (g : QGenerator M) (form : String) (h : Bool)
    (S : Matrix (Fin M) (Fin M) ℝ) (hform : form = "Z2N" ∨ form = "N2N") (hS : g.S = .ok S) (err : PyErr)
    (he : g.weightsEmbedded = .error err) : g.genCoeffs form h true = .error err := by
  unfold QGenerator.genCoeffs
  simp only [bind, Except.bind, pure, Except.pure]
  rcases hform with rfl | rfl
  · simp [he]
  · simp [he, hS]

theorem rk_tables_b2 : ∀ T ∈ Tables.rkSchemes, ∀ l, T.b2 = some l → l.length = T.c.length := by
  have : (Tables.rkSchemes.all fun T => match T.b2 with | none => true | some l => l.length == T.c.length) = true := by
    decide +kernel
  intro T hT l hl
  have := List.all_eq_true.mp this T hT
  rw [hl] at this
  simpa using this

theorem callRK_none (g : RK) : callRK g (fun _ => none) = .ok g := by
  unfold callRK
  rw [if_neg (by simp)]
  rfl

/-- Instance of `C37_errors`: an unknown form. -/
example : genQCoeffs "RK4" "Z2Z" = .error .valueError :=
  (C37_errors "RK4" "Z2Z" false false (fun _ => none) (.rk Tables.tRK4)
    (Q_GENERATORS_rk (by simp [Tables.rkSchemes]) (by decide))).2 ⟨_, Tables.tRK4.toRK.toQGenerator⟩ (by
      change (callRK Tables.tRK4.toRK (fun _ => none) >>= fun g => _) = _
      rw [callRK_none]
      rfl) (by decide) (by decide)

/-- C37, Runge-Kutta: without parameters, every name and alias of a class gives its nodes, weights and
matrix, or for `N2N` the differences of the rows; embedded weights and `hCoeffs` are there exactly when asked
for, and asking for embedded weights that the class does not have is a `NotImplementedError`. -/
theorem C37_rk (T : RKTable) (hT : T ∈ Tables.rkSchemes) (k : String) (hk : k = T.name ∨ k ∈ T.aliases)
    (form : String) (hform : form = "Z2N" ∨ form = "N2N") (h e : Bool) :
    (e = true → T.b2 = none → genQCoeffs k form h e = .error .notImplementedError) ∧
    ((e = true → T.b2 ≠ none) → ∃ out, genQCoeffs k form h e = .ok ⟨T.c.length, out⟩ ∧
      (∀ i, out.nodes i = (T.c.getD i 0).toReal) ∧ (∀ i, out.weights i = (T.b.getD i 0).toReal) ∧
      (form = "Z2N" → ∀ i j, out.mat i j = ((T.A.getD i []).getD j 0).toReal) ∧
      (form = "N2N" → ∀ i j, out.mat i j = ((T.A.getD i []).getD j 0).toReal -
        if (i : ℕ) = 0 then 0 else ((T.A.getD (i - 1) []).getD j 0).toReal) ∧
      (e = false → out.weights2 = none) ∧
      (e = true → ∃ l, T.b2 = some l ∧ out.weights2 = some fun i : Fin T.c.length => (l.getD (i : ℕ) 0).toReal) ∧
      (h = false → out.hCoeffs = none) ∧ (h = true → out.hCoeffs ≠ none)) := by
  have hcall : (QClass.rk T).call (fun _ => none) = .ok ⟨T.toRK.s, T.toRK.toQGenerator⟩ := by
    change (callRK T.toRK (fun _ => none) >>= fun g => _) = _
    rw [callRK_none]
    rfl
  have hgen : ∀ r, T.toRK.toQGenerator.genCoeffs form h e = r →
      genQCoeffs k form h e = (r.map fun out => (⟨T.toRK.s, out⟩ : Σ M, QCoeffs M)) := by
    rintro _ rfl
    unfold genQCoeffs
    rw [Q_GENERATORS_rk hT hk]
    simp only [hcall, bind, Except.bind]
    cases T.toRK.toQGenerator.genCoeffs form h e <;> rfl
  have hS : T.toRK.toQGenerator.S = .ok (qgenS T.toRK.A) := rfl
  constructor
  · rintro rfl hb
    have hb2 : T.toRK.toQGenerator.weightsEmbedded = .error .notImplementedError := by
      have : T.toRK.b2 = none := by simp [RKTable.toRK, hb]
      simp only [RK.toQGenerator, this]
    rw [hgen _ (genCoeffs_noEmbedded _ form h _ hform hS _ hb2)]
    rfl
  · intro he
    have hemb : e = true → ∃ l, T.b2 = some l ∧ l.length = T.c.length ∧
        T.toRK.toQGenerator.weightsEmbedded = .ok ⟨l.length, fun i => (l.getD i 0).toReal⟩ := by
      intro h1
      obtain ⟨l, hl⟩ := Option.ne_none_iff_exists'.mp (he h1)
      refine ⟨l, hl, rk_tables_b2 T hT l hl, ?_⟩
      have : T.toRK.b2 = some ⟨l.length, fun i => (l.getD i 0).toReal⟩ := by simp [RKTable.toRK, hl]
      simp only [RK.toQGenerator, this]
    have hhc : ∃ v, T.toRK.toQGenerator.hCoeffs = .ok v := by
      obtain ⟨L, hL⟩ := new_default_total T.toRK.c
      have : qgenHCoeffs T.toRK.c = .ok (L.getInterpolationMatrix (fun _ : Fin 1 => 1) 0) := by
        unfold qgenHCoeffs
        simp only [hL, bind, Except.bind]
        rfl
      refine ⟨L.getInterpolationMatrix (fun _ : Fin 1 => 1) 0, ?_⟩
      change T.toRK.hCoeffs = _
      unfold RK.hCoeffs
      rw [this]
    obtain ⟨out, hout⟩ := genCoeffs_total _ form h e _ hform hS
      (fun h1 => by
        obtain ⟨l, -, h2, h3⟩ := hemb h1
        exact ⟨_, h3, h2⟩) (fun _ => hhc)
    obtain ⟨h1, h2, h3, h4, h5, h6, h7⟩ := genCoeffs_parts _ _ _ _ _ hout
    refine ⟨out, by rw [hgen _ hout]; rfl, fun i => by rw [h1]; rfl, fun i => by rw [h2]; rfl,
      fun hf i j => ?_, fun hf i j => ?_, h4, fun he1 => ?_, h6, fun hh1 => ?_⟩
    · rcases h3 with ⟨-, h3⟩ | ⟨h3, -⟩
      · rw [h3]; rfl
      · rw [hf] at h3; exact absurd h3 (by decide)
    · rcases h3 with ⟨h3, -⟩ | ⟨-, h3⟩
      · rw [hf] at h3; exact absurd h3 (by decide)
      · rw [← Except.ok.inj (hS.symm.trans h3)]
        by_cases hi : (i : ℕ) = 0
        · rw [if_pos hi, sub_zero]
          exact (C21_S_rows T.toRK.A i j).1 hi
        · rw [if_neg hi]
          exact (C21_S_rows T.toRK.A i j).2 (by omega)
    · obtain ⟨l, hl, hlen, hwe⟩ := hemb he1
      obtain ⟨w, hw, hs, h5⟩ := h5 he1
      rw [hwe] at hw
      cases hw
      exact ⟨l, hl, h5⟩
    · obtain ⟨v, -, hv⟩ := h7 hh1
      exact hv ▸ Option.some_ne_none v

/-- C37, instance: `RK_SCHEMES["HEUN2"]` has embedded weights, `RK4` has not. -/
example : (∃ out, genQCoeffs "HEUN" "N2N" true true = .ok ⟨2, out⟩) ∧
    genQCoeffs "RK4" "Z2N" false true = .error .notImplementedError :=
  ⟨((C37_rk Tables.tHEUN2 (by simp [Tables.rkSchemes]) "HEUN" (by decide) "N2N" (Or.inr rfl) true true).2
    (fun _ => by decide)).imp fun _ h => h.1,
   (C37_rk Tables.tRK4 (by simp [Tables.rkSchemes]) "RK4" (by decide) "Z2N" (Or.inl rfl) false true).1 rfl rfl⟩

/-- The parameters of a `Collocation`. -/
def collParams (M : ℕ) (nt qt : String) (a b : ℝ) : PyDict PyVal := fun n =>
  if n = "nNodes" then some (.int M)
  else if n = "nodeType" then some (.str nt)
  else if n = "quadType" then some (.str qt)
  else if n = "tLeft" then some (.real a)
  else if n = "tRight" then some (.real b)
  else none

theorem callColl_params (M : ℕ) (nt qt : String) (a b : ℝ) :
    callColl (collParams M nt qt a b) =
      (Collocation.new M nt qt a b).map fun c => (⟨M, c.toQGenerator⟩ : Σ M, QGenerator M) := by
  unfold callColl
  rw [if_neg]
  · simp only [collParams, String.reduceEq, if_true, if_false, paramReal, bind, Except.bind]
    cases Collocation.new M nt qt a b <;> rfl
  · rintro ⟨n, hn, hp⟩
    simp only [List.mem_cons, List.not_mem_nil, or_false, not_or] at hn
    exact hp (by simp [collParams, hn])

/-- C37, collocation: both names give the nodes, weights and matrix of the `Collocation` object, or for `N2N` the
differences of the rows; there are no embedded weights. -/
theorem C37_coll {M : ℕ} {nt qt : String} (hnt : nt ∈ NODE_TYPES) (hqt : qt ∈ QUAD_TYPES)
    (hn : ValidSize qt M) {a b : ℝ} (hab : a < b) (k : String) (hk : k = "Collocation" ∨ k = "coll")
    (form : String) (hform : form = "Z2N" ∨ form = "N2N") (h : Bool) :
    genQCoeffs k form h true (collParams M nt qt a b) = .error .notImplementedError ∧
    ∃ c out, Collocation.new M nt qt a b = .ok c ∧
      genQCoeffs k form h false (collParams M nt qt a b) = .ok ⟨M, out⟩ ∧
      out.nodes = c.nodes ∧ out.weights = c.weights ∧ (form = "Z2N" → out.mat = c.Q) ∧
      (form = "N2N" → ∀ i j, out.mat i j = c.Q i j - if h : (i : ℕ) = 0 then 0 else c.Q ⟨i - 1, by omega⟩ j) ∧
      out.weights2 = none ∧ out.hCoeffs = if h then some c.hCoeffs else none := by
  obtain ⟨c, hc⟩ := collocation_new_ok hnt hqt hn a b
  have hcall : (QClass.coll).call (collParams M nt qt a b) = .ok ⟨M, c.toQGenerator⟩ := by
    change callColl _ = _
    rw [callColl_params, hc]
    rfl
  have hQ : Q_GENERATORS k = some .coll := by
    unfold Q_GENERATORS
    rw [if_pos hk]
  have hgen : ∀ e r, c.toQGenerator.genCoeffs form h e = r →
      genQCoeffs k form h e (collParams M nt qt a b) = (r.map fun out => (⟨M, out⟩ : Σ M, QCoeffs M)) := by
    rintro e _ rfl
    unfold genQCoeffs
    rw [hQ]
    simp only [hcall, bind, Except.bind]
    cases c.toQGenerator.genCoeffs form h e <;> rfl
  have hS : c.toQGenerator.S = .ok (qgenS c.Q) := C25_S_override hab c hc
  refine ⟨?_, c, ?_⟩
  · rw [hgen true _ (genCoeffs_noEmbedded _ form h _ hform hS .notImplementedError rfl)]
    rfl
  · obtain ⟨out, hout⟩ := genCoeffs_total c.toQGenerator form h false _ hform hS (by simp)
      (fun _ => ⟨c.hCoeffs, rfl⟩)
    obtain ⟨h1, h2, h3, h4, -, h6, h7⟩ := genCoeffs_parts _ _ _ _ _ hout
    refine ⟨out, hc, by rw [hgen _ _ hout]; rfl, h1, h2, fun hf => ?_, fun hf i j => ?_, h4 rfl, ?_⟩
    · rcases h3 with ⟨-, h3⟩ | ⟨h3, -⟩
      · exact h3
      · rw [hf] at h3; exact absurd h3 (by decide)
    · rcases h3 with ⟨h3, -⟩ | ⟨-, h3⟩
      · rw [hf] at h3; exact absurd h3 (by decide)
      · rw [← Except.ok.inj (hS.symm.trans h3)]
        by_cases hi : (i : ℕ) = 0
        · rw [dif_pos hi, sub_zero]
          exact (C21_S_rows c.Q i j).1 hi
        · rw [dif_neg hi]
          exact (C21_S_rows c.Q i j).2 (by omega)
    · rcases h with _ | _
      · exact h6 rfl
      · obtain ⟨v, hv, hv'⟩ := h7 rfl
        cases hv
        exact hv'

example : genQCoeffs "coll" "N2N" true true (collParams 3 "LEGENDRE" "LOBATTO" 0 2) = .error .notImplementedError :=
  (C37_coll (by decide) (by decide) ⟨by norm_num, by simp⟩ (by norm_num) "coll" (Or.inr rfl) "N2N" (Or.inr rfl)
    true).1

/-- C37: `getInstance()` is the class without padding, and the collocation with 4 Legendre nodes of type
`RADAU-RIGHT` on `[0, 1]`. -/
theorem C37_getInstance :
    (∀ T : RKTable, (QClass.rk T).getInstance = .ok ⟨T.c.length, T.toRK.toQGenerator⟩) ∧
    ∃ c : Collocation 4, Collocation.new 4 "LEGENDRE" "RADAU-RIGHT" 0 1 = .ok c ∧
      QClass.coll.getInstance = .ok ⟨4, c.toQGenerator⟩ := by
  constructor
  · intro T
    unfold QClass.getInstance QClass.call
    simp only [callRK_none, bind, Except.bind]
    rfl
  · obtain ⟨c, hc⟩ := collocation_new_ok (M := 4) (nt := "LEGENDRE") (qt := "RADAU-RIGHT") (by decide)
      (by decide) ⟨by norm_num, by simp⟩ 0 1
    refine ⟨c, hc, ?_⟩
    have h1 : callColl (fun _ => none) = .error .typeError := by
      unfold callColl
      rw [if_neg (by simp)]
    have h2 : callColl collDefaultParams = .ok ⟨4, c.toQGenerator⟩ := by
      unfold callColl
      rw [if_neg]
      · simp only [collDefaultParams, String.reduceEq, if_true, if_false, paramReal, bind, Except.bind, hc]
        rfl
      · rintro ⟨n, hn, hp⟩
        simp only [List.mem_cons, List.not_mem_nil, or_false, not_or] at hn
        exact hp (by simp [collDefaultParams, hn])
    unfold QClass.getInstance QClass.call
    simp only [h1]
    exact h2

/-! ## Padded classes -/

theorem cons_nat {s : ℕ} (v : Fin s → ℝ) (f : ℕ → ℝ) (hv : ∀ i : Fin s, v i = f i) (i : Fin (s + 1)) :
    (Fin.cons 0 v : Fin (s + 1) → ℝ) i = if (i : ℕ) = 0 then 0 else f (i - 1) := by
  refine Fin.cases ?_ (fun i => ?_) i
  · simp
  · simp [hv]

theorem snoc_nat {s : ℕ} (v : Fin s → ℝ) (a : ℝ) (f : ℕ → ℝ) (hv : ∀ i : Fin s, v i = f i)
    (i : Fin (s + 1)) : (Fin.snoc v a : Fin (s + 1) → ℝ) i = if (i : ℕ) < s then f i else a := by
  refine Fin.lastCases ?_ (fun i => ?_) i
  · simp
  · simp [hv]

theorem padLeftA_nat {s : ℕ} (A : Matrix (Fin s) (Fin s) ℝ) (f : ℕ → ℕ → ℝ) (hA : ∀ i j : Fin s, A i j = f i j)
    (i j : Fin (s + 1)) :
    RK.padLeftA A i j = if (i : ℕ) = 0 ∨ (j : ℕ) = 0 then 0 else f (i - 1) (j - 1) := by
  refine Fin.cases ?_ (fun i => ?_) i
  · simp [RK.padLeftA]
  · have := cons_nat (A i) (f i) (hA i) j
    simp only [RK.padLeftA, Matrix.of_apply, Fin.cases_succ, this, Fin.val_succ]
    simp

theorem padRightA_nat {s : ℕ} (A : Matrix (Fin s) (Fin s) ℝ) (b : Fin s → ℝ) (f : ℕ → ℕ → ℝ) (fb : ℕ → ℝ)
    (hA : ∀ i j : Fin s, A i j = f i j) (hb : ∀ i : Fin s, b i = fb i) (i j : Fin (s + 1)) :
    RK.padRightA A b i j = if (j : ℕ) < s then (if (i : ℕ) < s then f i j else fb j) else 0 := by
  refine Fin.lastCases ?_ (fun i => ?_) i
  · have := snoc_nat b 0 fb hb j
    simp [RK.padRightA, this]
  · have := snoc_nat (A i) 0 (f i) (hA i) j
    simp [RK.padRightA, this]

/-- The parameters of a padded class. -/
def padParams (p : String) : PyDict PyVal := fun n => if n = "padding" then some (.str p) else none

/-- Nodes added at the left and at the right by a padding. -/
def padSizes (p : String) : ℕ × ℕ :=
  (if p = "LEFT" ∨ p = "BOTH" then 1 else 0, if p = "RIGHT" ∨ p = "BOTH" then 1 else 0)

theorem callRK_pad (g : RK) {p : String} (hp : p ∈ ["LEFT", "RIGHT", "BOTH"]) :
    callRK g (padParams p) = g.init (some p) := by
  unfold callRK
  rw [if_neg (by rintro ⟨n, hn, hp⟩; simp at hn; exact hp (by simp [padParams, hn]))]
  simp only [padParams, if_true]
  simp only [List.mem_cons, List.not_mem_nil, or_false] at hp
  rcases hp with rfl | rfl | rfl <;> simp [paramPadding, bind, Except.bind]

theorem rk_hCoeffs_total (g : RK) : ∃ v, g.toQGenerator.hCoeffs = .ok v := by
  obtain ⟨L, hL⟩ := new_default_total g.c
  have : qgenHCoeffs g.c = .ok (L.getInterpolationMatrix (fun _ : Fin 1 => 1) 0) := by
    unfold qgenHCoeffs
    simp only [hL, bind, Except.bind]
    rfl
  refine ⟨L.getInterpolationMatrix (fun _ : Fin 1 => 1) 0, ?_⟩
  change g.hCoeffs = _
  unfold RK.hCoeffs
  rw [this]

theorem pad_values (T : RKTable) {p : String} (hp : p ∈ ["LEFT", "RIGHT", "BOTH"]) :
    ∃ g, T.toRK.init (some p) = .ok g ∧ g.s = T.c.length + (padSizes p).1 + (padSizes p).2 ∧
      (∀ i : Fin g.s, g.c i = if (i : ℕ) < (padSizes p).1 then 0
        else if (i : ℕ) < T.c.length + (padSizes p).1 then (T.c.getD (i - (padSizes p).1) 0).toReal else 1) ∧
      (∀ i : Fin g.s, g.b i = if (i : ℕ) < (padSizes p).1 then 0
        else if (i : ℕ) < T.c.length + (padSizes p).1 then (T.b.getD (i - (padSizes p).1) 0).toReal else 0) ∧
      (∀ i j : Fin g.s, g.A i j = if (i : ℕ) < (padSizes p).1 then 0
        else if (i : ℕ) < T.c.length + (padSizes p).1 then
          (if (j : ℕ) < (padSizes p).1 then 0
            else if (j : ℕ) < T.c.length + (padSizes p).1 then
              ((T.A.getD (i - (padSizes p).1) []).getD (j - (padSizes p).1) 0).toReal else 0)
        else g.b j) := by
  have hc : ∀ i : Fin T.toRK.s, T.toRK.c i = (fun i : ℕ => (T.c.getD i 0).toReal) i := fun _ => rfl
  have hb : ∀ i : Fin T.toRK.s, T.toRK.b i = (fun i : ℕ => (T.b.getD i 0).toReal) i := fun _ => rfl
  have hA : ∀ i j : Fin T.toRK.s, T.toRK.A i j = (fun i j : ℕ => ((T.A.getD i []).getD j 0).toReal) i j :=
    fun _ _ => rfl
  have hs : T.toRK.s = T.c.length := rfl
  simp only [List.mem_cons, List.not_mem_nil, or_false] at hp
  rcases hp with rfl | rfl | rfl
  · have hz : padSizes "LEFT" = (1, 0) := by decide
    refine ⟨T.toRK.padLeft, by simp [RK.init], by rw [hz]; rfl, fun i => ?_, fun i => ?_, fun i j => ?_⟩
    · rw [hz, show T.toRK.padLeft.c i = _ from cons_nat _ (fun i => (T.c.getD i 0).toReal) hc i]
      have := i.2
      change (i : ℕ) < T.c.length + 1 at this
      simp only [Nat.lt_one_iff, if_pos this]
    · rw [hz, show T.toRK.padLeft.b i = _ from cons_nat _ (fun i => (T.b.getD i 0).toReal) hb i]
      have := i.2
      change (i : ℕ) < T.c.length + 1 at this
      simp only [Nat.lt_one_iff, if_pos this]
    · rw [hz, show T.toRK.padLeft.A i j = _ from padLeftA_nat _ (fun i j => ((T.A.getD i []).getD j 0).toReal) hA i j]
      have h1 := i.2
      have h2 := j.2
      change (i : ℕ) < T.c.length + 1 at h1
      change (j : ℕ) < T.c.length + 1 at h2
      simp only [Nat.lt_one_iff, if_pos h1, if_pos h2]
      split_ifs <;> first | rfl | omega
  · have hz : padSizes "RIGHT" = (0, 1) := by decide
    have hbb : ∀ j, T.toRK.padRight.b j = _ := fun j => snoc_nat _ _ (fun i => (T.b.getD i 0).toReal) hb j
    refine ⟨T.toRK.padRight, by simp [RK.init], by rw [hz]; rfl, fun i => ?_, fun i => ?_, fun i j => ?_⟩
    · rw [hz, show T.toRK.padRight.c i = _ from snoc_nat _ _ (fun i => (T.c.getD i 0).toReal) hc i]
      simp [hs]
    · rw [hz, hbb]
      simp [hs]
    · rw [hz, hbb, show T.toRK.padRight.A i j = _ from padRightA_nat _ _ (fun i j => ((T.A.getD i []).getD j 0).toReal) (fun i => (T.b.getD i 0).toReal) hA hb i j]
      simp only [hs, Nat.not_lt_zero, if_false, add_zero, Nat.sub_zero]
      split_ifs <;> rfl
  · have hz : padSizes "BOTH" = (1, 1) := by decide
    have hcL : ∀ j, T.toRK.padLeft.c j = _ := fun j => cons_nat _ (fun i => (T.c.getD i 0).toReal) hc j
    have hbL : ∀ j, T.toRK.padLeft.b j = _ := fun j => cons_nat _ (fun i => (T.b.getD i 0).toReal) hb j
    have hAL : ∀ i j, T.toRK.padLeft.A i j = _ := fun i j => padLeftA_nat _ (fun i j => ((T.A.getD i []).getD j 0).toReal) hA i j
    have hbb : ∀ j, T.toRK.padLeft.padRight.b j = _ := fun j =>
      snoc_nat _ _ (fun j => if j = 0 then 0 else (T.b.getD (j - 1) 0).toReal) hbL j
    have hs' : T.toRK.padLeft.s = T.c.length + 1 := rfl
    refine ⟨T.toRK.padLeft.padRight, by simp [RK.init], by rw [hz]; rfl, fun i => ?_, fun i => ?_, fun i j => ?_⟩
    · rw [hz, show T.toRK.padLeft.padRight.c i = _ from
        snoc_nat _ _ (fun j => if j = 0 then 0 else (T.c.getD (j - 1) 0).toReal) hcL i]
      simp only [hs', Nat.lt_one_iff]
      split_ifs <;> first | rfl | omega
    · rw [hz, hbb]
      simp only [hs', Nat.lt_one_iff]
      split_ifs <;> first | rfl | omega
    · rw [hz, hbb, show T.toRK.padLeft.padRight.A i j = _ from padRightA_nat _ _
        (fun i j => if i = 0 ∨ j = 0 then 0 else ((T.A.getD (i - 1) []).getD (j - 1) 0).toReal)
        (fun j => if j = 0 then 0 else (T.b.getD (j - 1) 0).toReal) hAL hbL i j]
      simp only [hs', Nat.lt_one_iff]
      split_ifs <;> first | rfl | omega

/-- C37, the parameters of a Runge-Kutta class: any name but `padding` is a `TypeError`; `None`, `""` and `0` mean no
padding; any other value but the three strings is an `AssertionError`. -/
theorem C37_rk_params (T : RKTable) (hT : T ∈ Tables.rkSchemes) (k : String) (hk : k = T.name ∨ k ∈ T.aliases)
    (form : String) (h e : Bool) (params : PyDict PyVal) :
    ((∃ n, n ≠ "padding" ∧ params n ≠ none) → genQCoeffs k form h e params = .error .typeError) ∧
    ((∀ n, n ≠ "padding" → params n = none) →
      (params "padding" ∈ [none, some .none, some (.str ""), some (.int 0), some (.real 0)] →
        genQCoeffs k form h e params = genQCoeffs k form h e) ∧
      (params "padding" ∉ [none, some .none, some (.str ""), some (.int 0), some (.real 0)] →
        (∀ p ∈ ["LEFT", "RIGHT", "BOTH"], params "padding" ≠ some (.str p)) →
        genQCoeffs k form h e params = .error .assertionError)) := by
  have hQ := Q_GENERATORS_rk hT hk
  have hbad : ∀ err, callRK T.toRK params = .error err → genQCoeffs k form h e params = .error err := by
    intro err herr
    refine (C37_errors k form h e params (.rk T) hQ).1 err ?_
    change (callRK T.toRK params >>= fun g => _) = _
    rw [herr]
    rfl
  refine ⟨fun ⟨n, hn, hp⟩ => hbad _ ?_, fun honly => ⟨fun hp => ?_, fun hp hs => hbad _ ?_⟩⟩
  · unfold callRK
    rw [if_pos ⟨n, by simpa using hn, hp⟩]
  · have hno : ¬ ∃ n, n ∉ ["padding"] ∧ params n ≠ none := by
      rintro ⟨n, hn, hp⟩
      exact hp (honly n (by simpa using hn))
    have hc : callRK T.toRK params = callRK T.toRK (fun _ => none) := by
      rw [callRK_none]
      unfold callRK
      rw [if_neg hno]
      simp only [List.mem_cons, List.not_mem_nil, or_false] at hp
      rcases hp with hp | hp | hp | hp | hp <;> rw [hp] <;> simp [paramPadding, bind, Except.bind, RK.init]
    unfold genQCoeffs QClass.call
    simp only [hQ, hc]
  · have hno : ¬ ∃ n, n ∉ ["padding"] ∧ params n ≠ none := by
      rintro ⟨n, hn, hp⟩
      exact hp (honly n (by simpa using hn))
    unfold callRK
    rw [if_neg hno]
    have : paramPadding (params "padding") = .error .assertionError := by
      unfold paramPadding
      split
      · simp_all
      · simp_all
      · simp_all
      · simp_all
      · rename_i x hx
        rw [if_neg]
        rintro rfl
        simp [hx] at hp
      · rename_i p _ hx
        rw [if_neg]
        intro hmem
        exact hs p hmem hx
      · rfl
    rw [this]
    rfl

/-- Instance: an unknown parameter and an unknown padding. -/
example : genQCoeffs "RK4" "Z2N" false false (PyDict.single "nNodes" (.int 4)) = .error .typeError :=
  (C37_rk_params Tables.tRK4 (by simp [Tables.rkSchemes]) "RK4" (by decide) "Z2N" false false (PyDict.single "nNodes" (.int 4))).1
    ⟨"nNodes", by decide, by simp [PyDict.single]⟩

/-- C37, the parameters of `Collocation`: an unknown or a missing name is a `TypeError`, an unknown node or quadrature
type and a number of nodes that the type does not have a `ValueError`. -/
theorem C37_coll_params (k : String) (hk : k = "Collocation" ∨ k = "coll") (form : String) (h e : Bool)
    (params : PyDict PyVal) :
    ((∃ n, n ∉ ["nNodes", "nodeType", "quadType", "tLeft", "tRight"] ∧ params n ≠ none) →
      genQCoeffs k form h e params = .error .typeError) ∧
    (params "nNodes" = none ∨ params "nodeType" = none ∨ params "quadType" = none →
      genQCoeffs k form h e params = .error .typeError) ∧
    (∀ M nt qt a b, nt ∉ NODE_TYPES ∨ qt ∉ QUAD_TYPES ∨ ¬ ValidSize qt M →
      genQCoeffs k form h e (collParams M nt qt a b) = .error .valueError) := by
  have hQ : Q_GENERATORS k = some .coll := by
    unfold Q_GENERATORS
    rw [if_pos hk]
  have hbad : ∀ ps err, callColl ps = .error err → genQCoeffs k form h e ps = .error err :=
    fun ps err herr => (C37_errors k form h e ps .coll hQ).1 err herr
  refine ⟨fun hn => hbad _ _ ?_, fun hm => hbad _ _ ?_, fun M nt qt a b hv => ?_⟩
  · unfold callColl
    rw [if_pos hn]
  · unfold callColl
    split
    · rfl
    · rcases hm with hm | hm | hm <;> simp only [hm] <;> split <;> simp_all
  · have hc : Collocation.new M nt qt a b = .error .valueError := by
      unfold Collocation.new
      simp only [bind, Except.bind, pure, Except.pure]
      by_cases hnq : nt ∈ NODE_TYPES ∧ qt ∈ QUAD_TYPES
      · rw [(C15_constructor_errors nt qt).1 hnq]
        have hs : ¬ ValidSize qt M := (hv.resolve_left fun h => h hnq.1).resolve_left fun h => h hnq.2
        have : NodesGenerator.getNodes ⟨nt, qt⟩ M = .error .valueError := by
          unfold NodesGenerator.getNodes
          split_ifs with h1 h2 <;> try rfl
          all_goals
            refine absurd ⟨by omega, fun hq => ?_⟩ hs
            by_contra hlt
            exact h1 ⟨hq, by omega⟩
        simp only [this]
      · rw [(C15_constructor_errors nt qt).2 hnq]
    refine hbad _ _ ?_
    rw [callColl_params, hc]
    rfl

/-- Instance: one Lobatto node. -/
example : genQCoeffs "coll" "Z2N" false false (collParams 1 "LEGENDRE" "LOBATTO" 0 1) = .error .valueError :=
  (C37_coll_params "coll" (Or.inr rfl) "Z2N" false false fun _ => none).2.2 1 _ _ 0 1
    (Or.inr (Or.inr fun h => by simpa using h.2 (by decide)))

/-- C37, padded classes: the padding adds a stage at `0` before and a stage at `1` after, whose row is the weights;
embedded weights cannot be had. -/
theorem C37_padded (T : RKTable) (hT : T ∈ Tables.rkSchemes) (k : String) (hk : k = T.name ∨ k ∈ T.aliases)
    (p : String) (hp : p ∈ ["LEFT", "RIGHT", "BOTH"]) (h : Bool) :
    (∀ form, form = "Z2N" ∨ form = "N2N" → genQCoeffs k form h true (padParams p) =
      .error (if T.b2 = none then .notImplementedError else .valueError)) ∧
    ∃ M out, genQCoeffs k "Z2N" h false (padParams p) = .ok ⟨M, out⟩ ∧
      M = T.c.length + (padSizes p).1 + (padSizes p).2 ∧
      (∀ i : Fin M, out.nodes i = if (i : ℕ) < (padSizes p).1 then 0
        else if (i : ℕ) < T.c.length + (padSizes p).1 then (T.c.getD (i - (padSizes p).1) 0).toReal else 1) ∧
      (∀ i : Fin M, out.weights i = if (i : ℕ) < (padSizes p).1 then 0
        else if (i : ℕ) < T.c.length + (padSizes p).1 then (T.b.getD (i - (padSizes p).1) 0).toReal else 0) ∧
      (∀ i j : Fin M, out.mat i j = if (i : ℕ) < (padSizes p).1 then 0
        else if (i : ℕ) < T.c.length + (padSizes p).1 then
          (if (j : ℕ) < (padSizes p).1 then 0
            else if (j : ℕ) < T.c.length + (padSizes p).1 then
              ((T.A.getD (i - (padSizes p).1) []).getD (j - (padSizes p).1) 0).toReal else 0)
        else out.weights j) ∧
      out.weights2 = none ∧ (h = false → out.hCoeffs = none) ∧ (h = true → out.hCoeffs ≠ none) := by
  obtain ⟨g, hg, hv⟩ := pad_values T hp
  have hcall : (QClass.rk T).call (padParams p) = .ok ⟨g.s, g.toQGenerator⟩ := by
    change (callRK T.toRK (padParams p) >>= fun g => _) = _
    rw [callRK_pad _ hp, hg]
    rfl
  have hgen : ∀ form e r, g.toQGenerator.genCoeffs form h e = r →
      genQCoeffs k form h e (padParams p) = (r.map fun out => (⟨g.s, out⟩ : Σ M, QCoeffs M)) := by
    rintro form e _ rfl
    unfold genQCoeffs
    rw [Q_GENERATORS_rk hT hk]
    simp only [hcall, bind, Except.bind]
    cases g.toQGenerator.genCoeffs form h e <;> rfl
  have hS : g.toQGenerator.S = .ok (qgenS g.A) := rfl
  have hb2 : g.b2 = T.toRK.b2 := by
    rcases RK.init_cases _ _ _ hg with ⟨rfl, -⟩ | ⟨rfl, -⟩ | ⟨rfl, -⟩ | ⟨rfl, -⟩ <;> rfl
  have hlt : T.c.length < g.s := by
    rcases RK.init_cases _ _ _ hg with ⟨-, h⟩ | ⟨rfl, -⟩ | ⟨rfl, -⟩ | ⟨rfl, -⟩
    · rcases h with h | h
      · cases h
      · cases h; simp at hp
    all_goals simp [RK.padLeft, RK.padRight, RKTable.toRK]
  constructor
  · intro form hform
    cases hT2 : T.b2 with
    | none =>
      have hwe : g.toQGenerator.weightsEmbedded = .error .notImplementedError := by
        have : T.toRK.b2 = none := by simp [RKTable.toRK, hT2]
        simp only [RK.toQGenerator, hb2, this]
      rw [hgen _ _ _ (genCoeffs_noEmbedded _ form h _ hform hS _ hwe)]
      rfl
    | some l =>
      have hwe : g.toQGenerator.weightsEmbedded = .ok ⟨l.length, fun i => (l.getD i 0).toReal⟩ := by
        have : T.toRK.b2 = some ⟨l.length, fun i => (l.getD i 0).toReal⟩ := by simp [RKTable.toRK, hT2]
        simp only [RK.toQGenerator, hb2, this]
      have hne : ¬ l.length = g.s := by rw [rk_tables_b2 T hT l hT2]; omega
      have : g.toQGenerator.genCoeffs form h true = .error .valueError := by
        unfold QGenerator.genCoeffs
        rcases hform with rfl | rfl <;> simp [hwe, hS, bind, Except.bind, npVstackSnd, hne, pure, Except.pure]
      rw [hgen _ _ _ this]
      rfl
  · obtain ⟨out, hout⟩ := genCoeffs_total g.toQGenerator "Z2N" h false _ (Or.inl rfl) hS (by simp)
      (fun _ => rk_hCoeffs_total g)
    obtain ⟨h1, h2, h3, h4, -, h6, h7⟩ := genCoeffs_parts _ _ _ _ _ hout
    have h3 : out.mat = g.A := by
      rcases h3 with ⟨-, h3⟩ | ⟨h3, -⟩
      · exact h3
      · exact absurd h3 (by decide)
    refine ⟨g.s, out, by rw [hgen _ _ _ hout]; rfl, ?_⟩
    have hfin : (h = true → out.hCoeffs ≠ none) := fun hh => by
      obtain ⟨v, -, hv⟩ := h7 hh
      exact hv ▸ Option.some_ne_none v
    have hw : ∀ i, out.weights i = g.b i := fun i => by rw [h2]; rfl
    refine ⟨hv.1, fun i => ?_, fun i => ?_, fun i j => ?_, h4 rfl, h6, hfin⟩
    · rw [h1]; exact hv.2.1 i
    · rw [h2]; exact hv.2.2.1 i
    · rw [h3, hw]; exact hv.2.2.2 i j

/-- Padded on both sides: six stages, the last row is the weights. -/
example : ∃ out : QCoeffs 6, genQCoeffs "RK4" "Z2N" false false (padParams "BOTH") = .ok ⟨6, out⟩ := by
  obtain ⟨M, out, h, hM, -⟩ := (C37_padded Tables.tRK4 (by simp [Tables.rkSchemes]) "RK4" (by decide) "BOTH"
    (by decide) false).2
  obtain rfl : M = 6 := hM
  exact ⟨out, h⟩

end QMat
