import Verif.Model.QDeltaInputs
import Verif.Lemmas.TimeStep
import Mathlib.Tactic.Linarith
import Mathlib.Tactic.NormNum
import Mathlib.Data.List.Basic

/-!
# C99: generators and the arrays they were built from
-/

namespace QMat

open Matrix

variable {α : Type} {n : ℕ}

/-- The content of the array after a history: the last value written. -/
def lastWritten (v : α) (h : List (SharedAction α)) : α :=
  h.foldl (fun v a => match a with | .write w => w | .getQDelta _ => v) v

section
variable (g : SharedGen α n)

theorem getQDelta_input (k : Option ℤ) (s : SharedState α n) :
    (g.getQDelta k s).2.input = s.input := by
  unfold SharedGen.getQDelta
  split
  · rfl
  · split <;> rfl

/-- **C99**: no call writes to the array given to the constructor. -/
theorem C99_input (v : α) (h : List (SharedAction α)) :
    (g.history v h).input = lastWritten v h := by
  unfold SharedGen.history lastWritten
  suffices ∀ s : SharedState α n, (h.foldl g.act s).input =
      h.foldl (fun v a => match a with | .write w => w | .getQDelta _ => v) s.input from this ⟨v, []⟩
  induction h with
  | nil => intro s; rfl
  | cons a h ih =>
    intro s
    rw [List.foldl_cons, ih, List.foldl_cons]
    congr 1
    cases a with
    | getQDelta k => exact getQDelta_input g k s
    | write w => rfl

theorem lookup_act (key : Option ℤ) (A : Matrix (Fin n) (Fin n) ℝ) (s : SharedState α n)
    (hs : s.cache.lookup key = some A) (a : SharedAction α) :
    (g.act s a).cache.lookup key = some A := by
  cases a with
  | write w => exact hs
  | getQDelta k =>
    change (g.getQDelta k s).2.cache.lookup key = some A
    unfold SharedGen.getQDelta
    split
    · exact hs
    · rename_i hk
      split
      · change List.lookup key ((g.key k, _) :: s.cache) = some A
        rw [List.lookup_cons]
        have : (key == g.key k) = false := by
          rw [beq_eq_false_iff_ne]
          rintro rfl
          rw [hk] at hs
          cases hs
        rw [this]
        exact hs
      · exact hs

/-- **C99**: once `getQDelta(k)` has returned a matrix, it returns this matrix for ever, whatever is
written to the array; if the coefficients do not depend on `k`, this holds for every `k`. -/
theorem C99_stable (v : α) (h₁ h₂ : List (SharedAction α)) (k k' : Option ℤ)
    (hk : g.kDependent = true → k' = k) (A : Matrix (Fin n) (Fin n) ℝ)
    (hA : (g.getQDelta k (g.history v h₁)).1 = .ok A) :
    (g.getQDelta k' (g.history v (h₁ ++ .getQDelta k :: h₂))).1 = .ok A := by
  have hkey : g.key k' = g.key k := by
    unfold SharedGen.key
    split_ifs with h
    · exact hk h
    · rfl
  have h1 : (g.getQDelta k (g.history v h₁)).2.cache.lookup (g.key k) = some A := by
    unfold SharedGen.getQDelta at hA ⊢
    split at hA
    · rename_i hl
      cases hA
      simp [hl]
    · rename_i hl
      split at hA
      · rename_i hc
        cases hA
        simp
      · cases hA
  have h2 : (g.history v (h₁ ++ .getQDelta k :: h₂)).cache.lookup (g.key k) = some A := by
    unfold SharedGen.history at h1 ⊢
    rw [List.foldl_append, List.foldl_cons]
    change (h₂.foldl g.act (g.getQDelta k (h₁.foldl g.act ⟨v, []⟩)).2).cache.lookup (g.key k) = _
    generalize (g.getQDelta k (h₁.foldl g.act ⟨v, []⟩)).2 = s at h1 ⊢
    induction h₂ generalizing s with
    | nil => exact h1
    | cons a h ih => exact ih _ (lookup_act g _ A s h1 a)
  unfold SharedGen.getQDelta
  rw [hkey, h2]

/-- **C99**: as long as `getQDelta(k)` was not called with success, it computes from what the array
contains at the time of the call, not from what the constructor was given. -/
theorem C99_lazy (v : α) (h : List (SharedAction α)) (k : Option ℤ)
    (hk : ∀ h₁ h₂ k', h = h₁ ++ .getQDelta k' :: h₂ → (g.kDependent = true → k' = k) →
      ¬∃ A, (g.getQDelta k' (g.history v h₁)).1 = .ok A) :
    (g.getQDelta k (g.history v h)).1 = g.compute (lastWritten v h) k := by
  have hl : (g.history v h).cache.lookup (g.key k) = none := by
    induction h using List.reverseRecOn with
    | nil => rfl
    | append_singleton h a ih =>
      have ih := ih fun h₁ h₂ k' e => hk h₁ (h₂ ++ [a]) k' (by rw [e]; simp)
      unfold SharedGen.history at ih ⊢
      rw [List.foldl_append, List.foldl_cons, List.foldl_nil]
      cases a with
      | write w => exact ih
      | getQDelta k' =>
        change (g.getQDelta k' (h.foldl g.act ⟨v, []⟩)).2.cache.lookup (g.key k) = none
        have hk' := hk h [] k' rfl
        by_cases hkk : g.kDependent = true → k' = k
        · have hno := hk' hkk
          have hkey : g.key k' = g.key k := by
            unfold SharedGen.key
            split_ifs with hd
            · exact hkk hd
            · rfl
          unfold SharedGen.history at hno
          unfold SharedGen.getQDelta at hno ⊢
          rw [hkey, ih] at hno ⊢
          cases hc : g.compute (h.foldl g.act ⟨v, []⟩).input k' with
          | ok A => exact absurd ⟨A, by simp [hc]⟩ hno
          | error e => simpa [hc] using ih
        · push Not at hkk
          have hkey : (g.key k == g.key k') = false := by
            rw [beq_eq_false_iff_ne]
            unfold SharedGen.key
            rw [if_pos hkk.1, if_pos hkk.1]
            exact fun e => hkk.2 e.symm
          unfold SharedGen.getQDelta
          split
          · exact ih
          · split
            · change List.lookup (g.key k) ((g.key k', _) :: _) = none
              rw [List.lookup_cons, hkey]
              exact ih
            · exact ih
  rw [← C99_input g v h]
  unfold SharedGen.getQDelta
  rw [hl]
  cases g.compute (g.history v h).input k <;> rfl

/-- **C99**: an object whose computations do not use the array is not changed by what is written to
it: `getQDelta(k)` always gives the same result. -/
theorem C99_frozen (v : α) (r : Option ℤ → PyResult (Matrix (Fin n) (Fin n) ℝ))
    (hr : ∀ w k, g.compute w k = r k) (hkr : g.kDependent = false → ∀ k k', r k = r k')
    (h : List (SharedAction α)) (k : Option ℤ) :
    (g.getQDelta k (g.history v h)).1 = r k := by
  have inv : ∀ k A, (g.history v h).cache.lookup (g.key k) = some A → r k = .ok A := by
    unfold SharedGen.history
    suffices ∀ s : SharedState α n, (∀ k A, s.cache.lookup (g.key k) = some A → r k = .ok A) →
        ∀ k A, (h.foldl g.act s).cache.lookup (g.key k) = some A → r k = .ok A from
      this _ (fun k A e => by simp at e)
    induction h with
    | nil => exact fun s hs => hs
    | cons a h ih =>
      intro s hs
      refine ih _ fun k A e => ?_
      cases a with
      | write w => exact hs k A e
      | getQDelta k' =>
        change (g.getQDelta k' s).2.cache.lookup (g.key k) = some A at e
        unfold SharedGen.getQDelta at e
        split at e
        · exact hs k A e
        · split at e
          · rename_i B hB
            change List.lookup (g.key k) ((g.key k', B) :: s.cache) = some A at e
            rw [List.lookup_cons] at e
            split at e
            · rename_i hkk
              cases e
              rw [beq_iff_eq] at hkk
              rw [← hB, hr]
              unfold SharedGen.key at hkk
              split_ifs at hkk with hd
              · rw [hkk]
              · exact hkr (by simpa using hd) _ _
            · exact hs k A e
          · exact hs k A e
  unfold SharedGen.getQDelta
  split
  · rename_i A hA
    exact (inv k A hA).symm
  · rw [hr]
    cases r k <;> rfl

end

/-! ## The classes -/

/-- **C99**: `BE`, `FE` and `TRAP` objects do not see what is written to the array of nodes: in any
history, `getQDelta` returns the coefficients of the nodes at construction, and so do the `dTau` of
`FE` and `TRAP`. -/
theorem C99_time {nodes : Fin n → ℝ} {tLeft : ℝ} {t : TimeStepping n}
    (ht : TimeStepping.new nodes tLeft = .ok t) (h : List (SharedAction (Fin n → ℝ))) (k : Option ℤ) :
    (∃ g, sharedTime (fun g => .ok g.computeBE) (fun _ => 0) nodes tLeft = .ok g ∧
      (g.getQDelta k (g.history nodes h)).1 = .ok t.computeBE) ∧
    (∃ g, sharedTime (fun g => .ok g.computeFE) (fun g => g.dTauFE) nodes tLeft = .ok g ∧
      (g.getQDelta k (g.history nodes h)).1 = .ok t.computeFE ∧
      g.dTau (g.history nodes h).input = t.dTauFE) ∧
    (∃ g, sharedTime (fun g => .ok g.computeTRAP) (fun g => g.dTauTRAP) nodes tLeft = .ok g ∧
      (g.getQDelta k (g.history nodes h)).1 = .ok t.computeTRAP ∧
      g.dTau (g.history nodes h).input = t.dTauTRAP) := by
  unfold sharedTime
  rw [ht]
  refine ⟨⟨_, rfl, C99_frozen _ _ (fun _ => .ok t.computeBE) (fun _ _ => rfl) (fun _ _ _ => rfl) h k⟩,
    ⟨_, rfl, C99_frozen _ _ (fun _ => .ok t.computeFE) (fun _ _ => rfl) (fun _ _ _ => rfl) h k, ?_⟩,
    ⟨_, rfl, C99_frozen _ _ (fun _ => .ok t.computeTRAP) (fun _ _ => rfl) (fun _ _ _ => rfl) h k, ?_⟩⟩
  · funext i; simp [TimeStepping.dTauFE]
  · funext i; simp [TimeStepping.dTauTRAP]

example (h : List (SharedAction (Fin 2 → ℝ))) : ∃ t g,
    TimeStepping.new ![(1:ℝ)/2, 1] 0 = .ok t ∧
    sharedTime (fun g => .ok g.computeBE) (fun _ => 0) ![(1:ℝ)/2, 1] 0 = .ok g ∧
    (g.getQDelta none (g.history ![(1:ℝ)/2, 1] (.write ![2, 3] :: h))).1 = .ok t.computeBE := by
  obtain ⟨t, ht⟩ : ∃ t, TimeStepping.new ![(1:ℝ)/2, 1] 0 = .ok t := ⟨_, rfl⟩
  obtain ⟨⟨g, hg, e⟩, -⟩ := C99_time ht (.write ![2, 3] :: h) none
  exact ⟨t, g, ht, hg, e⟩

/-- **C99**: `BEPAR`, `TRAPAR` and `SOE` objects use what the array of nodes contains when
`getQDelta` is called for the first time: the result is that of an object built from these nodes. -/
theorem C99_time_lazy (compute : TimeStepping n → PyResult (Matrix (Fin n) (Fin n) ℝ))
    (hc : ∀ g g' : TimeStepping n, g.nodes = g'.nodes → g.tLeft = g'.tLeft → compute g = compute g')
    (dTau : TimeStepping n → Fin n → ℝ) {nodes : Fin n → ℝ} {tLeft : ℝ}
    {g : SharedGen (Fin n → ℝ) n} (hg : sharedTime compute dTau nodes tLeft = .ok g)
    (w : List (Fin n → ℝ)) (k : Option ℤ) :
    ∃ t, TimeStepping.new (w.getLastD nodes) tLeft = .ok t ∧
      (g.getQDelta k (g.history nodes (w.map .write))).1 = compute t := by
  unfold sharedTime at hg
  cases ht : TimeStepping.new nodes tLeft with
  | error e => rw [ht] at hg; cases hg
  | ok t =>
    rw [ht] at hg
    have hM := (t.new_ok ht).1
    obtain ⟨t', ht'⟩ : ∃ t', TimeStepping.new (w.getLastD nodes) tLeft = .ok t' := by
      unfold TimeStepping.new; rw [if_pos hM]; exact ⟨_, rfl⟩
    refine ⟨t', ht', ?_⟩
    rw [C99_lazy]
    · have hw : lastWritten nodes (w.map .write) = w.getLastD nodes := by
        unfold lastWritten
        rw [List.foldl_map]
        clear ht' hg ht
        induction w generalizing nodes with
        | nil => rfl
        | cons a w ih =>
          rw [List.foldl_cons]
          refine (ih (nodes := a)).trans ?_
          cases w with
          | nil => rfl
          | cons b w => simp [List.getLast?_cons]
      rw [hw]
      cases hg
      exact hc _ _ (t'.new_ok ht').2.1.symm ((t.new_ok ht).2.2.1.trans (t'.new_ok ht').2.2.1.symm)
    · intro h₁ h₂ k' e
      exfalso
      have : SharedAction.getQDelta k' ∈ w.map .write := by rw [e]; simp
      simp at this

/-- The three classes meet the hypothesis. -/
example : (∀ g g' : TimeStepping n, g.nodes = g'.nodes → g.tLeft = g'.tLeft →
      g.computeBEPAR = g'.computeBEPAR) ∧
    (∀ g g' : TimeStepping n, g.nodes = g'.nodes → g.tLeft = g'.tLeft →
      g.computeTRAPAR = g'.computeTRAPAR) ∧
    (∀ g g' : TimeStepping n, g.nodes = g'.nodes → g.tLeft = g'.tLeft →
      g.computeSOE = g'.computeSOE) := by
  refine ⟨fun g g' hn ht => ?_, fun g g' hn ht => ?_, fun g g' hn ht => ?_⟩
  · simp [TimeStepping.computeBEPAR, hn, ht]
  · simp [TimeStepping.computeTRAPAR, hn, ht]
  · have hs : ∀ i, g.soeTimes i = g'.soeTimes i := fun i => by
      cases i <;> simp [TimeStepping.soeTimes, hn]
    have ha : g.soeAlpha = g'.soeAlpha := by
      funext i; simp only [TimeStepping.soeAlpha, hs]
    simp only [TimeStepping.computeSOE, ha]

/-- FALSE: the coefficients of an object are those of the array it was built from.  A `BEPAR` object
built from the nodes `1/2, 1`, that were overwritten with `2, 3` before the first call, returns
`diag(2, 3)`; and, after a first call, the attribute `dTau` of a `TRAPAR` object is the one of the
nodes written later, while `getQDelta` still returns the coefficients of the first nodes. -/
theorem C99_inputs_fails :
    (∃ g, sharedTime (fun g => .ok g.computeBEPAR) (fun _ => 0) ![(1:ℝ)/2, 1] 0 = .ok g ∧
      (g.getQDelta none (g.history ![(1:ℝ)/2, 1] [.write ![2, 3]])).1 =
        .ok (Matrix.diagonal ![2, 3])) ∧
    (∃ g, sharedTime (fun g => .ok g.computeTRAPAR) (fun g => g.dTauTRAPAR) ![(1:ℝ)/2, 1] 0 = .ok g ∧
      (g.getQDelta none (g.history ![(1:ℝ)/2, 1] [.getQDelta none, .write ![2, 3]])).1 =
        .ok (Matrix.diagonal ![1/4, 1/2]) ∧
      g.dTau (g.history ![(1:ℝ)/2, 1] [.getQDelta none, .write ![2, 3]]).input = ![1, 3/2]) := by
  refine ⟨⟨_, rfl, congrArg Except.ok ?_⟩, ⟨_, rfl, congrArg Except.ok ?_, ?_⟩⟩
  · ext i j
    fin_cases i <;> fin_cases j <;> simp [TimeStepping.computeBEPAR, SharedGen.history,
      SharedGen.act]
  · ext i j
    fin_cases i <;> fin_cases j <;> simp [TimeStepping.computeTRAPAR] <;> norm_num
  · funext i
    fin_cases i <;> simp [TimeStepping.dTauTRAPAR, SharedGen.history, SharedGen.act]

/-- The same with the matrix `Q` of the algebraic classes: `Exact` returns what the array contains
at the first call. -/
theorem C99_Q_fails (Q Q' : Matrix (Fin n) (Fin n) ℝ) (k : Option ℤ) :
    let g := sharedQ fun Q : Matrix (Fin n) (Fin n) ℝ => .ok (computeExact Q)
    (g.getQDelta k (g.history Q [.write Q'])).1 = .ok Q' ∧
    (g.getQDelta k (g.history Q [.getQDelta k, .write Q'])).1 = .ok Q := ⟨rfl, rfl⟩

end QMat
