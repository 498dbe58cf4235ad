import Verif.Props.Registry

/-!
# C66 for the registries of `QDelta` generators and of Runge-Kutta classes
-/

namespace QMat.Registry

/-- Lookups after a call, from what it stored. -/
theorem Stores.trace {h : Heap} {c : ℕ} {d d' : Dict} {r : PyResult Unit} (s : Stores h c d d' r) :
    ∃ ks, ks <+: ((h c).name :: (match getattr h c "aliases" with | some (.strList l) => l | _ => [])) ∧
      (∀ k ∈ ks, d.lookup k = none) ∧ ∀ k, d'.lookup k = if k ∈ ks then some c else d.lookup k := by
  obtain ⟨ks, h1, h2, h3⟩ := s.seg
  refine ⟨ks, h1, h3.2, fun k => ?_⟩
  rw [h2, lookup_append, lookup_const]
  split_ifs with hk
  · rw [h3.2 k hk]; rfl
  · simp

/-- A call for a name that is taken stores nothing. -/
theorem Stores.taken {h : Heap} {c : ℕ} {d d' : Dict} {r : PyResult Unit} (s : Stores h c d d' r) (ht : d.lookup (h c).name ≠ none) :
    d' = d ∧ r ≠ .ok () := by
  have first : ∀ ks : List String, ks <+: ((h c).name :: (match getattr h c "aliases" with | some (.strList l) => l | _ => [])) →
      Fresh d ks → ks = [] := by
    intro ks h1 h2
    cases ks with
    | nil => rfl
    | cons k ks =>
      obtain ⟨t, e⟩ := h1
      rw [List.cons_append, List.cons.injEq] at e
      exact absurd (e.1 ▸ h2.2 k (by simp)) ht
  obtain ⟨ks, h1, h2, h3⟩ := s.seg
  have e := first ks h1 h3
  refine ⟨by rw [h2, e]; simp, fun hr => ?_⟩
  obtain ⟨ks', k1, -, k3⟩ := s.all hr
  have e' := first ks' ((classKeys_eq k1) ▸ List.prefix_rfl) k3
  rw [classKeys_eq k1] at e'
  cases e'

/-- C66: what a call of the `register` of the `QDelta` generators may leave behind, raising or not: an initial segment of the name and the
aliases, all new; nothing when the name is taken. -/
theorem C66_trace_bound_qdelta (h : Heap) (c : ℕ) (d : Dict) :
    (∃ ks, ks <+: ((h c).name :: (match getattr h c "aliases" with | some (.strList l) => l | _ => [])) ∧
      (∀ k ∈ ks, d.lookup k = none) ∧ ∀ k, (registerQDelta h c d).2.1.lookup k = if k ∈ ks then some c else d.lookup k) ∧
    (d.lookup (h c).name ≠ none → (registerQDelta h c d).2.1 = d ∧ (registerQDelta h c d).2.2 ≠ .ok ()) :=
  ⟨(registerQDelta_stores h c d).2.trace, (registerQDelta_stores h c d).2.taken⟩

/-- C66: the same for `registerRK` and its two registries; when the name is taken in the first, both stay. -/
theorem C66_trace_bound_rk (h : Heap) (c : ℕ) (t : RKAttrs) (rk q : Dict) :
    (∃ ks, ks <+: ((h c).name :: (match getattr h c "aliases" with | some (.strList l) => l | _ => [])) ∧
      (∀ k ∈ ks, rk.lookup k = none) ∧ ∀ k, (registerRK h c t rk q).1.1.lookup k = if k ∈ ks then some c else rk.lookup k) ∧
    (∃ ks, ks <+: ((h c).name :: (match getattr h c "aliases" with | some (.strList l) => l | _ => [])) ∧
      (∀ k ∈ ks, q.lookup k = none) ∧ ∀ k, (registerRK h c t rk q).1.2.lookup k = if k ∈ ks then some c else q.lookup k) ∧
    (rk.lookup (h c).name ≠ none ∨ t.b.length ≠ t.c.length ∨ t.A.length ≠ t.c.length ∨ (∃ r ∈ t.A, r.length ≠ t.c.length) →
      (registerRK h c t rk q).1 = (rk, q) ∧ (registerRK h c t rk q).2 ≠ .ok ()) := by
  have hs := checkAndStore_stores h c t rk
  have hq := registerQ_stores h c q
  refine ⟨?_, ?_, fun hbad => ?_⟩
  · unfold registerRK
    rcases hc : checkAndStore h c t rk with ⟨d', e | ⟨⟨⟩⟩⟩
    · rw [hc] at hs; exact hs.trace
    · rw [hc] at hs; exact hs.trace
  · unfold registerRK
    rcases hc : checkAndStore h c t rk with ⟨d', e | ⟨⟨⟩⟩⟩
    · exact ⟨[], List.nil_prefix, by simp, by simp⟩
    · exact hq.trace
  · have key : (checkAndStore h c t rk).1 = rk ∧ (checkAndStore h c t rk).2 ≠ .ok () := by
      rcases hbad with ht | hshape
      · exact hs.taken ht
      · unfold checkAndStore
        split
        · exact ⟨rfl, fun h => by cases h⟩
        · rename_i shape hsh
          split_ifs with h1 h2
          · exact ⟨rfl, fun h => by cases h⟩
          · exact ⟨rfl, fun h => by cases h⟩
          · exfalso
            rw [ne_eq, not_not] at h1 h2
            rcases hshape with hb | hA | ⟨r, hr, hne⟩
            · exact hb h1
            · unfold npShape2 at hsh
              split at hsh
              · cases hsh
                simp at h2
              · split_ifs at hsh
                cases hsh
                simp only [List.cons.injEq] at h2
                exact hA h2.1
            · unfold npShape2 at hsh
              split at hsh
              · rename_i hA
                rw [hA] at hr
                cases hr
              · rename_i r0 rest hA
                rw [hA] at hr
                split_ifs at hsh with hall
                cases hsh
                simp only [List.cons.injEq, and_true] at h2
                rw [List.all_eq_true] at hall
                rcases List.mem_cons.1 hr with rfl | hr
                · exact hne h2.2
                · exact hne ((by simpa using hall r hr : r.length = r0.length).trans h2.2)
    unfold registerRK
    rcases hc : checkAndStore h c t rk with ⟨d', e | ⟨⟨⟩⟩⟩
    · rw [hc] at key
      obtain rfl : d' = rk := key.1
      exact ⟨rfl, fun h => by cases h⟩
    · rw [hc] at key
      exact absurd rfl key.2

/-- C66: a `QDelta` generator that breaks the interface (see C68) leaves the registry and the class unchanged. -/
theorem C66_unchanged_qdelta (h : Heap) (c : ℕ) (d : Dict)
    (hbad : ¬ ((∃ i ps p, getattr h c "__init__" = some (.function i ps) ∧
        ps.find? (fun p => p.name = "kwargs") = some p ∧ p.varKeyword = true) ∧
      ∃ i ps p base a, getattr h c "computeQDelta" = some (.function i ps) ∧
        ps.find? (fun p => p.name = "k") = some p ∧ p.positionalOrKeyword = true ∧
        (h c).mro.reverse[1]? = some base ∧ getattr h base "computeQDelta" = some a ∧ a ≠ .function i ps)) :
    (registerQDelta h c d).1 = h ∧ (registerQDelta h c d).2.1 = d ∧ (registerQDelta h c d).2.2 ≠ .ok () := by
  have hne : (registerQDelta h c d).2.2 ≠ .ok () := fun hr => by
    obtain ⟨h1, h2, -⟩ := (C68_qdelta h c d).1.1 hr
    exact hbad ⟨h1, h2⟩
  suffices hs : (registerQDelta h c d).1 = h ∧ (registerQDelta h c d).2.1 = d from ⟨hs.1, hs.2, hne⟩
  clear hne
  have hgen : checkGenericConstr h c = .ok () → ∃ i ps p, getattr h c "__init__" = some (.function i ps) ∧
      ps.find? (fun p => p.name = "kwargs") = some p ∧ p.varKeyword = true := by
    unfold checkGenericConstr
    rcases hi : getattr h c "__init__" with _ | a
    · simp
    cases a with
    | function i ps =>
      simp only
      rcases hf : ps.find? (fun p => p.name = "kwargs") with _ | p
      · simp [hf]
      · simp only [hf]
        intro hh
        split_ifs at hh with hv
        exact ⟨i, ps, p, rfl, hf, hv⟩
    | _ => simp
  have hmeth := checkOverriding_method_ok h c "computeQDelta"
  unfold registerQDelta
  rcases hg : checkGenericConstr h c with e | ⟨⟨⟩⟩
  · exact ⟨rfl, rfl⟩
  rcases ho : checkOverriding h c "computeQDelta" with e | ⟨⟨⟩⟩
  · exact ⟨rfl, rfl⟩
  obtain ⟨a, base, b, ha, hb, hab, hne'⟩ := hmeth.1 ho
  simp only [ha]
  cases a with
  | function i ps =>
    simp only
    rcases hf : ps.find? (fun p => p.name = "k") with _ | p
    · simp only [hf]
      simp
    simp only [hf]
    by_cases hp : p.positionalOrKeyword = true
    · exact absurd ⟨hgen hg, i, ps, p, base, b, ha, hf, hp, hb, hab, fun e => hne' e.symm⟩ hbad
    · rw [if_neg hp]
      exact ⟨rfl, rfl⟩
  | _ => exact ⟨rfl, rfl⟩

/-- Instances: a second call for the same `QDelta` generator stores nothing, and one for the base class, which overrides nothing, neither
(`0` is `object`). -/
example : (registerQDelta exampleQD 2 [("Foo", 7), ((exampleQD 2).name, 2)]).2.1 = [("Foo", 7), ((exampleQD 2).name, 2)] :=
  ((C66_trace_bound_qdelta exampleQD 2 _).2 (by decide +kernel)).1

example : (registerQDelta exampleQD 0 [("Foo", 7)]).2.1 = [("Foo", 7)] :=
  (C66_unchanged_qdelta exampleQD 0 _ (by
    rintro ⟨⟨i, ps, p, h, -⟩, -⟩
    have : getattr exampleQD 0 "__init__" = none := by decide +kernel
    rw [this] at h
    cases h)).2.1

/-- A Runge-Kutta class with one weight for two stages. -/
example (h : Heap) (c : ℕ) (rk q : Dict) :
    (registerRK h c { A := [[0, 0], [1, 0]], b := [1], c := [0, 1] } rk q).1 = (rk, q) :=
  ((C66_trace_bound_rk h c _ rk q).2.2 (Or.inr (Or.inl (by simp)))).1

/-- C66, finding: a `register` call that raises because the name is taken has already changed the class: it is `k`-dependent now. -/
theorem C66_class_changed_fails : ∃ (h : Heap) (c : ℕ) (d : Dict), isKDependent h c = false ∧
    (registerQDelta h c d).2.2 = .error .assertionError ∧ (registerQDelta h c d).2.1 = d ∧
    isKDependent (registerQDelta h c d).1 c = true :=
  ⟨exampleQD, 2, [((exampleQD 2).name, 3)], by decide +kernel⟩

end QMat.Registry
