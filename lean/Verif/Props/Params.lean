import Verif.Model.QDeltaGen

/-!
# C55: parameter resolution of the `QDelta` generators (`useQGen`)
-/

namespace QMat

variable {V : Type} (isNone : V → Bool) (pNames : List String) (extract : V → PyResult (PyDict V))

theorem dictZip_nil (n : String) : dictZip pNames ([] : List V) n = none := by
  simp [dictZip]

/-- C55: without `qGen` (or with `qGen=None`) the parameters are the keyword arguments, completed by
the positional ones. -/
theorem C55_without_qGen (args : List V) (kwargs : PyDict V) (hcoll : kwargs "coll" = none)
    (hq : ∀ q, kwargs "qGen" = some q → isNone q = true) :
    ∃ d, useQGen isNone pNames extract args kwargs = .ok d ∧
      (∀ n, n ≠ "qGen" → d n = (kwargs n).or (dictZip pNames args n)) ∧ d "qGen" = dictZip pNames args "qGen" := by
  refine ⟨(dictZip pNames args).update (kwargs.erase "qGen"), ?_, fun n hn => ?_, by simp [PyDict.update, PyDict.erase]⟩
  · simp only [useQGen, hcoll, bind, Except.bind, pure, Except.pure]
    cases hk : kwargs "qGen" with
    | none => rfl
    | some q => simp [hq q hk]
  · simp [PyDict.update, PyDict.erase, hn]

/-- C55: with `qGen=q` the parameters are the keyword arguments, then the positional ones, then what
`extractParams(q)` provides: `q` only supplies parameters not given explicitly, and is not itself given to the constructor.  The same holds with
the deprecated name `coll`. -/
theorem C55_with_qGen (args : List V) (kwargs : PyDict V) (q : V) (e : PyDict V)
    (hnone : isNone q = false) (he : extract q = .ok e)
    (hq : kwargs "qGen" = some q ∧ kwargs "coll" = none ∨
      kwargs "qGen" = none ∧ kwargs "coll" = some q) :
    ∃ d, useQGen isNone pNames extract args kwargs = .ok d ∧
      (∀ n, n ≠ "qGen" → n ≠ "coll" →
        d n = ((kwargs n).or (dictZip pNames args n)).or (e n)) ∧
      ∀ n, n = "qGen" ∨ n = "coll" → d n = (dictZip pNames args n).or (e n) := by
  rcases hq with ⟨h1, h2⟩ | ⟨h1, h2⟩
  · refine ⟨_, by
      simp only [useQGen, h1, h2, bind, Except.bind, pure, Except.pure, hnone, he]
      rfl, fun n hn _ => ?_, ?_⟩
    · simp [PyDict.update, PyDict.erase, hn]
    · rintro n (rfl | rfl) <;> simp [PyDict.update, PyDict.erase, h2]
  · refine ⟨_, by
      simp only [useQGen, h1, h2, bind, Except.bind, pure, Except.pure, Option.isSome_none,
        Bool.false_eq_true, if_false, if_true, hnone, he]
      rfl, fun n hn hn' => ?_, ?_⟩
    · simp [PyDict.update, PyDict.erase, hn, hn']
    · rintro n (rfl | rfl) <;> simp [PyDict.update, PyDict.erase]

/-- C55: giving both `coll` and `qGen` raises `AssertionError`; an error of `extractParams` (wrong
kind of object) is passed on. -/
theorem C55_errors (args : List V) (kwargs : PyDict V) :
    (∀ c q, kwargs "coll" = some c → kwargs "qGen" = some q →
      useQGen isNone pNames extract args kwargs = .error .assertionError) ∧
    (∀ q e, kwargs "coll" = none → kwargs "qGen" = some q → isNone q = false →
      extract q = .error e → useQGen isNone pNames extract args kwargs = .error e) := by
  constructor
  · intro c q hc hq
    simp [useQGen, hc, hq, bind, Except.bind, throw, throwThe, MonadExceptOf.throw]
  · intro q e hc hq hn he
    simp [useQGen, hc, hq, hn, he, bind, Except.bind, pure, Except.pure]

/-- C55 (finding): positional arguments beyond the parameters of the constructor are dropped
silently, where Python would raise `TypeError`. -/
theorem C55_extra_positional_fails (args extra : List V) (kwargs : PyDict V)
    (h : pNames.length ≤ args.length) :
    useQGen isNone pNames extract (args ++ extra) kwargs =
      useQGen isNone pNames extract args kwargs := by
  have : dictZip pNames (args ++ extra) = dictZip pNames args := by
    funext n
    unfold dictZip
    congr 1
    have h1 : (args ++ extra) = args.take pNames.length ++ (args.drop pNames.length ++ extra) := by
      rw [← List.append_assoc, List.take_append_drop]
    rw [h1]
    conv_rhs => rw [← List.take_append_drop pNames.length args]
    rw [← List.append_nil pNames, List.zip_append (by simp [h]), List.zip_append (by simp [h])]
    simp
  simp only [useQGen, this]

/-- A call with a positional node vector, a keyword argument and a `qGen`. -/
example (M : ℕ) (c : Collocation M) : ∃ d,
    useQGen PyVal.isNone ["nodes", "tLeft"] extractNodes [.array 2 ![1, 2]]
      ((PyDict.single "qGen" (.qgen (.coll M c))).update (PyDict.single "tLeft" (.real 3))) = .ok d ∧
    d "nodes" = some (.array 2 ![1, 2]) ∧ d "tLeft" = some (.real 3) := by
  obtain ⟨d, hd, h, -⟩ := C55_with_qGen PyVal.isNone ["nodes", "tLeft"] extractNodes
    [.array 2 ![1, 2]]
    ((PyDict.single "qGen" (.qgen (.coll M c))).update (PyDict.single "tLeft" (.real 3)))
    (.qgen (.coll M c)) (PyDict.single "nodes" (.array M c.nodes)) rfl rfl
    (Or.inl ⟨rfl, rfl⟩)
  refine ⟨d, hd, ?_, ?_⟩
  · rw [h _ (by decide) (by decide)]; rfl
  · rw [h _ (by decide) (by decide)]; rfl

/-- Instance of `C55_without_qGen`: nodes given by keyword. -/
example : ∃ d, useQGen PyVal.isNone ["nodes", "tLeft"] extractNodes [] (PyDict.single "nodes" (.array 2 ![1, 2])) = .ok d ∧
    d "nodes" = some (.array 2 ![1, 2]) := by
  obtain ⟨d, h, h', -⟩ := C55_without_qGen PyVal.isNone ["nodes", "tLeft"] extractNodes []
    (PyDict.single "nodes" (.array 2 ![1, 2])) rfl (by simp [PyDict.single])
  exact ⟨d, h, (h' "nodes" (by decide)).trans rfl⟩

/-- Instance of `C55_errors`: `coll` and `qGen` together. -/
example (c : PyVal) : useQGen PyVal.isNone ["nodes", "tLeft"] extractNodes []
    ((PyDict.single "coll" c).update (PyDict.single "qGen" c)) = .error .assertionError :=
  (C55_errors PyVal.isNone ["nodes", "tLeft"] extractNodes [] _).1 c c rfl rfl

end QMat
