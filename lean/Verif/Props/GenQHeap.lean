import Verif.Props.GenQ

/-!
# C70: the arrays returned by `genQCoeffs` and what writing to them does
-/

namespace QMat

open Matrix

/-- The class arrays of `T` are as they were after the import. -/
def QHeap.Intact (s : QHeap) (T : RKTable) : Prop :=
  ∀ attr, s.content (.cls T.name attr) = QHeap.init.content (.cls T.name attr)

theorem find_name {T : RKTable} : ∀ l : List RKTable, (l.map fun T => T.name).Nodup → T ∈ l →
    l.find? (fun U => U.name = T.name) = some T := by
  intro l
  induction l with
  | nil => simp
  | cons a l ih =>
    intro hnd hmem
    rw [List.map_cons, List.nodup_cons] at hnd
    rcases List.mem_cons.mp hmem with rfl | hmem
    · simp
    · have hne : a.name ≠ T.name := fun h => hnd.1 (h ▸ List.mem_map_of_mem hmem)
      rw [List.find?_cons]
      simp only [hne, decide_false]
      exact ih hnd.2 hmem

theorem init_content {T : RKTable} (hT : T ∈ Tables.rkSchemes) (attr : RKAttr) :
    QHeap.init.content (.cls T.name attr) = classContent T attr := by
  simp only [QHeap.init, find_name _ rk_names_nodup hT]

theorem readRK_intact {T : RKTable} (hT : T ∈ Tables.rkSchemes) (s : QHeap) (hs : s.Intact T) :
    s.readRK T = T.toRK := by
  have hc : ∀ attr, s.content (.cls T.name attr) = classContent T attr := fun attr => by
    rw [hs attr, init_content hT]
  unfold QHeap.readRK
  simp only [hc]
  have hA : (Matrix.of fun i j : Fin T.toRK.s => classContent T .A i j) = T.toRK.A := by
    ext i j
    simp [classContent, matContent]
  have hb : (fun j : Fin T.toRK.s => classContent T .b 0 j) = T.toRK.b := by
    ext j
    simp [classContent, vecContent]
  have hcc : (fun j : Fin T.toRK.s => classContent T .c 0 j) = T.toRK.c := by
    ext j
    simp [classContent, vecContent]
  have hb2 : (T.toRK.b2.map fun v => (⟨v.1, fun j => classContent T .b2 0 j⟩ : Σ k, Fin k → ℝ)) = T.toRK.b2 := by
    cases h : T.toRK.b2 with
    | none => rfl
    | some v => simp [classContent, h, vecContent]
  rw [hA, hb, hcc, hb2]

theorem genQCoeffsH_value (q form : String) (h e : Bool) (params : PyDict PyVal) (s : QHeap)
    (hs : ∀ T ∈ Tables.rkSchemes, Q_GENERATORS q = some (.rk T) → s.Intact T) :
    (genQCoeffsH q form h e params s).1.map Prod.fst = genQCoeffs q form h e params := by
  unfold genQCoeffsH genQCoeffs
  cases hG : Q_GENERATORS q with
  | none => rfl
  | some G =>
    cases G with
    | coll =>
      simp only [QClass.call, bind, Except.bind]
      cases callColl params with
      | error err => rfl
      | ok gen =>
        simp only
        cases gen.2.genCoeffs form h e <;> rfl
    | rk T =>
      have hT : T ∈ Tables.rkSchemes := by
        rcases Q_GENERATORS_cases hG with ⟨h, -⟩ | ⟨U, hU, h, -⟩
        · cases h
        · cases h; exact hU
      simp only [readRK_intact hT s (hs T hT hG), QClass.call, bind, Except.bind, pure, Except.pure]
      cases callRK T.toRK params with
      | error err => rfl
      | ok gen =>
        simp only
        cases gen.toQGenerator.genCoeffs form h e <;> rfl

/-! ## Calls only make new arrays -/

theorem alloc_old (s : QHeap) (x : ℕ → ℕ → ℝ) :
    (s.alloc x).1 = .new s.next ∧ (s.alloc x).2.next = s.next + 1 ∧
    (s.alloc x).2.content (.new s.next) = x ∧
    (∀ a, a ≠ .new s.next → (s.alloc x).2.content a = s.content a) := by
  refine ⟨rfl, rfl, by simp [QHeap.alloc], fun a ha => by simp [QHeap.alloc, ha]⟩

/-- `t` comes from `s` by making new arrays. -/
def QHeap.Extends (s t : QHeap) : Prop :=
  s.next ≤ t.next ∧ ∀ a, (∀ k, s.next ≤ k → a ≠ .new k) → t.content a = s.content a

theorem QHeap.Extends.refl (s : QHeap) : s.Extends s := ⟨le_rfl, fun _ _ => rfl⟩

theorem QHeap.Extends.trans {s t u : QHeap} (h : s.Extends t) (h' : t.Extends u) : s.Extends u :=
  ⟨h.1.trans h'.1, fun a ha => by rw [h'.2 a fun k hk => ha k (h.1.trans hk), h.2 a ha]⟩

theorem QHeap.extends_alloc (s : QHeap) (x : ℕ → ℕ → ℝ) : s.Extends (s.alloc x).2 :=
  ⟨Nat.le_succ _, fun a ha => (alloc_old s x).2.2.2 a (ha _ le_rfl)⟩

/-- What one of the returned arrays is. -/
theorem returnArray_spec (own : Option String) (attr : RKAttr) (asked : Bool) (x : ℕ → ℕ → ℝ) (s : QHeap) :
    s.Extends (returnArray own attr asked x s).2 ∧
    ((∃ name, own = some name ∧ asked = true ∧ (returnArray own attr asked x s).1 = .cls name attr) ∨
     ((own = none ∨ asked = false) ∧ ∃ k, (returnArray own attr asked x s).1 = .new k ∧ s.next ≤ k ∧
      k < (returnArray own attr asked x s).2.next ∧ (returnArray own attr asked x s).2.content (.new k) = x)) := by
  have hnew : ∃ k, (s.alloc x).1 = .new k ∧ s.next ≤ k ∧ k < (s.alloc x).2.next ∧
      (s.alloc x).2.content (.new k) = x :=
    ⟨s.next, rfl, le_rfl, Nat.lt_succ_self _, (alloc_old s x).2.2.1⟩
  unfold returnArray
  cases own with
  | none => exact ⟨QHeap.extends_alloc s x, Or.inr ⟨Or.inl rfl, hnew⟩⟩
  | some name =>
    cases asked with
    | false => exact ⟨QHeap.extends_alloc s x, Or.inr ⟨Or.inr rfl, hnew⟩⟩
    | true => exact ⟨.refl s, Or.inl ⟨name, rfl, rfl, rfl⟩⟩

theorem QHeap.Extends.keep {s t : QHeap} (h : s.Extends t) {k : ℕ} (hk : k < s.next) :
    t.content (.new k) = s.content (.new k) :=
  h.2 _ fun j hj e => by cases e; omega

theorem QHeap.Extends.cls {s t : QHeap} (h : s.Extends t) (name : String) (attr : RKAttr) :
    t.content (.cls name attr) = s.content (.cls name attr) :=
  h.2 _ fun _ _ e => by cases e

/-- Which arrays are returned, and what is in them right after the call. -/
theorem returnArrays_spec {M : ℕ} (own : Option String) (form : String) (e : Bool) (out : QCoeffs M)
    (s : QHeap) (r : QRet) (t : QHeap) (hr : returnArrays own form e out s = (r, t)) :
    s.Extends t ∧
    (∀ a ∈ r.arrays, (∃ name attr, own = some name ∧ a = .cls name attr) ∨
      ∃ k, a = .new k ∧ s.next ≤ k ∧ k < t.next) ∧
    ((∃ name, own = some name ∧ r.nodes = .cls name .c) ∨
      (own = none ∧ ∃ k, r.nodes = .new k ∧ t.content r.nodes = vecContent out.nodes)) ∧
    ((∃ name, own = some name ∧ e = false ∧ r.weights = .cls name .b) ∨
      ((own = none ∨ e = true) ∧ ∃ k, r.weights = .new k ∧ t.content r.weights = weightsContent out)) ∧
    ((∃ name, own = some name ∧ form = "Z2N" ∧ r.mat = .cls name .A) ∨
      ((own = none ∨ form ≠ "Z2N") ∧ ∃ k, r.mat = .new k ∧ t.content r.mat = matContent out.mat)) ∧
    ((out.hCoeffs = none ∧ r.hCoeffs = none) ∨
      ∃ h a k, out.hCoeffs = some h ∧ r.hCoeffs = some a ∧ a = .new k ∧ t.content a = vecContent h) := by
  unfold returnArrays at hr
  simp only at hr
  obtain ⟨hn, hn'⟩ := returnArray_spec own .c true (vecContent out.nodes) s
  generalize returnArray own .c true (vecContent out.nodes) s = n at *
  obtain ⟨hw, hw'⟩ := returnArray_spec own .b (!e) (weightsContent out) n.2
  generalize returnArray own .b (!e) (weightsContent out) n.2 = w at *
  obtain ⟨hm, hm'⟩ := returnArray_spec own .A (form = "Z2N") (matContent out.mat) w.2
  generalize returnArray own .A (form = "Z2N") (matContent out.mat) w.2 = m at *
  have hlast : m.2.Extends t ∧ r.nodes = n.1 ∧ r.weights = w.1 ∧ r.mat = m.1 ∧
      ((out.hCoeffs = none ∧ r.hCoeffs = none) ∨
        ∃ h k, out.hCoeffs = some h ∧ r.hCoeffs = some (.new k) ∧ m.2.next ≤ k ∧ k < t.next ∧
          t.content (.new k) = vecContent h) := by
    cases hh : out.hCoeffs with
    | none =>
      rw [hh] at hr
      cases hr
      exact ⟨.refl _, rfl, rfl, rfl, Or.inl ⟨rfl, rfl⟩⟩
    | some h =>
      rw [hh] at hr
      cases hr
      exact ⟨QHeap.extends_alloc _ _, rfl, rfl, rfl, Or.inr ⟨h, m.2.next, rfl, rfl, le_rfl, Nat.lt_succ_self _,
        (alloc_old _ _).2.2.1⟩⟩
  obtain ⟨ht, h1, h2, h3, h4⟩ := hlast
  have hst : s.Extends t := ((hn.trans hw).trans hm).trans ht
  refine ⟨hst, ?_, ?_, ?_, ?_, ?_⟩
  · intro a ha
    simp only [QRet.arrays, List.mem_append, List.mem_cons, List.not_mem_nil, or_false, Option.mem_toList,
      h1, h2, h3] at ha
    have l1 := hn.1; have l2 := hw.1; have l3 := hm.1; have l4 := ht.1
    rcases ha with (rfl | rfl | rfl) | ha
    · rcases hn' with ⟨name, ho, -, h⟩ | ⟨-, k, h, hk, hk', -⟩
      · exact Or.inl ⟨name, _, ho, h⟩
      · exact Or.inr ⟨k, h, hk, by omega⟩
    · rcases hw' with ⟨name, ho, -, h⟩ | ⟨-, k, h, hk, hk', -⟩
      · exact Or.inl ⟨name, _, ho, h⟩
      · exact Or.inr ⟨k, h, by omega, by omega⟩
    · rcases hm' with ⟨name, ho, -, h⟩ | ⟨-, k, h, hk, hk', -⟩
      · exact Or.inl ⟨name, _, ho, h⟩
      · exact Or.inr ⟨k, h, by omega, by omega⟩
    · rcases h4 with ⟨-, h4⟩ | ⟨h, k, -, h4, hk, hk', -⟩
      · rw [h4] at ha; cases ha
      · rw [h4] at ha
        cases ha
        exact Or.inr ⟨k, rfl, by omega, hk'⟩
  · rw [h1]
    rcases hn' with ⟨name, ho, -, h⟩ | ⟨ho, k, h, -, hk, hc⟩
    · exact Or.inl ⟨name, ho, h⟩
    · refine Or.inr ⟨by simpa using ho, k, h, ?_⟩
      rw [h, ((hw.trans hm).trans ht).keep hk, hc]
  · rw [h2]
    rcases hw' with ⟨name, ho, ha, h⟩ | ⟨ho, k, h, -, hk, hc⟩
    · exact Or.inl ⟨name, ho, by simpa using ha, h⟩
    · refine Or.inr ⟨by simpa using ho, k, h, ?_⟩
      rw [h, (hm.trans ht).keep hk, hc]
  · rw [h3]
    rcases hm' with ⟨name, ho, ha, h⟩ | ⟨ho, k, h, -, hk, hc⟩
    · exact Or.inl ⟨name, ho, by simpa using ha, h⟩
    · refine Or.inr ⟨by simpa using ho, k, h, ?_⟩
      rw [h, ht.keep hk, hc]
  · rcases h4 with h4 | ⟨h, k, h5, h6, -, -, h7⟩
    · exact Or.inl h4
    · exact Or.inr ⟨h, _, k, h5, h6, rfl, h7⟩

/-- What a call does to the heap, by cases. -/
theorem genQCoeffsH_cases (q form : String) (h e : Bool) (params : PyDict PyVal) (s : QHeap) :
    (∃ err, genQCoeffsH q form h e params s = (.error err, s)) ∨
    (∃ out own, genQCoeffsH q form h e params s =
      (.ok (out, (returnArrays own form e out.2 s).1), (returnArrays own form e out.2 s).2) ∧
      ((Q_GENERATORS q = some .coll ∧ own = none) ∨
        ∃ T g, Q_GENERATORS q = some (.rk T) ∧ callRK (s.readRK T) params = .ok g ∧
          (own = some T.name ∧ g = s.readRK T ∨ own = none) ∧
          ∃ hM : out.1 = g.s, g.toQGenerator.genCoeffs form h e = .ok (hM ▸ out.2))) := by
  unfold genQCoeffsH
  cases hG : Q_GENERATORS q with
  | none => exact Or.inl ⟨_, rfl⟩
  | some G =>
    cases G with
    | coll =>
      simp only
      generalize (callColl params >>= _) = x
      cases x with
      | error err => exact Or.inl ⟨_, rfl⟩
      | ok out => exact Or.inr ⟨out, none, rfl, Or.inl ⟨by trivial, rfl⟩⟩
    | rk T =>
      cases hg : callRK (s.readRK T) params with
      | error err => exact Or.inl ⟨err, by simp [hg, bind, Except.bind]⟩
      | ok g =>
        cases ho : g.toQGenerator.genCoeffs form h e with
        | error err => exact Or.inl ⟨err, by simp [hg, ho, bind, Except.bind]⟩
        | ok out =>
          refine Or.inr ⟨⟨g.s, out⟩, match paramPadding (params "padding") with
            | .ok none => some T.name
            | _ => none, ?_, Or.inr ⟨T, g, rfl, hg, ?_, rfl, ho⟩⟩
          · simp only [hg, ho, bind, Except.bind, pure, Except.pure]
            rfl
          · unfold callRK at hg
            split_ifs at hg
            cases hp : paramPadding (params "padding") with
            | error err => right; rfl
            | ok o =>
              cases o with
              | some p => right; rfl
              | none =>
                left
                simp only [hp, bind, Except.bind] at hg
                exact ⟨rfl, (Except.ok.inj hg).symm⟩

theorem genQCoeffsH_extends (q form : String) (h e : Bool) (params : PyDict PyVal) (s : QHeap) :
    s.Extends (genQCoeffsH q form h e params s).2 := by
  rcases genQCoeffsH_cases q form h e params s with ⟨err, he⟩ | ⟨out, own, he, -⟩
  · rw [he]; exact .refl s
  · rw [he]; exact (returnArrays_spec own form e out.2 s _ _ rfl).1

/-! ## Histories -/

/-- Every array that the program has exists. -/
def QSession.Valid (S : QSession) : Prop := ∀ k, QAddr.new k ∈ S.known → k < S.heap.next

theorem QSession.valid_act (S : QSession) (hS : S.Valid) (a : QAction) : (S.act a).Valid := by
  cases a with
  | write a x =>
    simp only [QSession.act]
    split_ifs
    · exact hS
    · exact hS
  | call q form h e params =>
    unfold QSession.act
    rcases genQCoeffsH_cases q form h e params S.heap with ⟨err, he⟩ | ⟨out, own, he, -⟩
    · simp only [he]; exact hS
    · simp only [he]
      obtain ⟨hx, ha, -⟩ := returnArrays_spec own form e out.2 S.heap _ _ rfl
      intro k hk
      rcases List.mem_append.mp hk with hk | hk
      · rcases ha _ hk with ⟨name, attr, -, h⟩ | ⟨j, h, -, hj⟩
        · cases h
        · cases h; exact hj
      · exact (hS k hk).trans_le hx.1

/-- An action changes the content of no existing array, except the one that it writes to. -/
theorem QSession.act_content (S : QSession) (a : QAction) (b : QAddr)
    (hb : ∀ k, S.heap.next ≤ k → b ≠ .new k) (ha : ∀ x, a ≠ .write b x) :
    (S.act a).heap.content b = S.heap.content b ∧ S.heap.next ≤ (S.act a).heap.next := by
  cases a with
  | write a x =>
    have hne : b ≠ a := fun h => ha x (by rw [h])
    simp only [QSession.act]
    split_ifs
    · exact ⟨by simp [hne], le_rfl⟩
    · exact ⟨rfl, le_rfl⟩
  | call q form h e params =>
    have hx := genQCoeffsH_extends q form h e params S.heap
    simp only [QSession.act]
    rcases he : genQCoeffsH q form h e params S.heap with ⟨r, t⟩
    rw [he] at hx
    cases r with
    | error err => exact ⟨hx.2 b hb, hx.1⟩
    | ok r => exact ⟨hx.2 b hb, hx.1⟩

theorem QSession.foldl_content (acts : List QAction) (b : QAddr) (ha : ∀ x, .write b x ∉ acts) :
    ∀ S : QSession, (∀ k, S.heap.next ≤ k → b ≠ .new k) →
      (acts.foldl QSession.act S).heap.content b = S.heap.content b := by
  induction acts with
  | nil => intro S _; rfl
  | cons a acts ih =>
    intro S hb
    obtain ⟨h1, h2⟩ := S.act_content a b hb fun x h => ha x (h ▸ List.mem_cons_self)
    rw [List.foldl_cons, ih (fun x h => ha x (List.mem_cons_of_mem _ h)) _ fun k hk => hb k (h2.trans hk), h1]

theorem QSession.valid_foldl (acts : List QAction) : ∀ S : QSession, S.Valid →
    (acts.foldl QSession.act S).Valid := by
  induction acts with
  | nil => intro S h; exact h
  | cons a acts ih => intro S h; exact ih _ (S.valid_act h a)

theorem QSession.valid_run (acts : List QAction) : (QSession.run acts).Valid :=
  QSession.valid_foldl acts _ (by intro k hk; cases hk)

theorem run_intact (acts : List QAction) (T : RKTable)
    (hw : ∀ attr x, .write (.cls T.name attr) x ∉ acts) : (QSession.run acts).heap.Intact T := fun attr =>
  QSession.foldl_content acts _ (hw attr) _ (fun _ _ h => by cases h)

/-- C70: as long as the program writes to none of the arrays of a class, calls with the names of the class give the
same values as in a new process, whatever else was called and written to. -/
theorem C70_isolated (acts : List QAction) (T : RKTable) (hT : T ∈ Tables.rkSchemes) (k : String)
    (hk : k = T.name ∨ k ∈ T.aliases) (hw : ∀ attr x, .write (.cls T.name attr) x ∉ acts)
    (form : String) (h e : Bool) (params : PyDict PyVal) :
    (genQCoeffsH k form h e params (QSession.run acts).heap).1.map Prod.fst = genQCoeffs k form h e params := by
  refine genQCoeffsH_value _ _ _ _ _ _ fun U _ hU => ?_
  rw [Q_GENERATORS_rk hT hk] at hU
  cases hU
  exact run_intact acts T hw

/-- C70: a program that does not write to class arrays gets from every call what it would get in a new process. -/
theorem C70_safe (acts : List QAction) (hw : ∀ name attr x, .write (.cls name attr) x ∉ acts)
    (q form : String) (h e : Bool) (params : PyDict PyVal) :
    (genQCoeffsH q form h e params (QSession.run acts).heap).1.map Prod.fst = genQCoeffs q form h e params :=
  genQCoeffsH_value _ _ _ _ _ _ fun T _ _ => run_intact acts T (hw T.name)

/-- Instance: calls, and writes to the arrays of a collocation. -/
example (x : ℕ → ℕ → ℝ) (p : PyDict PyVal) : (genQCoeffsH "RK4" "N2N" true false (fun _ => none) (QSession.run
      [.call "coll" "Z2N" false false p, .write (.new 0) x, .call "RK4" "Z2N" false false fun _ => none]).heap).1.map
      Prod.fst = genQCoeffs "RK4" "N2N" true false fun _ => none :=
  C70_safe _ (by simp) "RK4" "N2N" true false _

/-- C70: collocation coefficients depend on no history. -/
theorem C70_coll (acts : List QAction) (q : String) (hq : q = "Collocation" ∨ q = "coll")
    (form : String) (h e : Bool) (params : PyDict PyVal) :
    (genQCoeffsH q form h e params (QSession.run acts).heap).1.map Prod.fst = genQCoeffs q form h e params := by
  refine genQCoeffsH_value _ _ _ _ _ _ fun U _ hU => ?_
  unfold Q_GENERATORS at hU
  rw [if_pos hq] at hU
  cases hU

/-- Instance: writes to the arrays of an earlier collocation and to a table. -/
example (x : ℕ → ℕ → ℝ) (p : PyDict PyVal) : (genQCoeffsH "coll" "Z2N" false false p (QSession.run
      [.call "coll" "Z2N" false false p, .write (.new 0) x, .call "BE" "Z2N" false false fun _ => none,
        .write (.cls "BE" .A) x]).heap).1.map Prod.fst = genQCoeffs "coll" "Z2N" false false p :=
  C70_coll _ "coll" (Or.inr rfl) _ _ _ _

/-- C70: an array that was returned keeps its content until the program writes to it; later calls do not
change it. -/
theorem C70_stable (acts acts' : List QAction) (a : QAddr) (ha : a ∈ (QSession.run acts).known)
    (hw : ∀ x, .write a x ∉ acts') :
    (QSession.run (acts ++ acts')).heap.content a = (QSession.run acts).heap.content a := by
  have : QSession.run (acts ++ acts') = acts'.foldl QSession.act (QSession.run acts) := by
    unfold QSession.run
    rw [List.foldl_append]
  rw [this]
  refine QSession.foldl_content acts' a hw _ fun k hk h => ?_
  have := QSession.valid_run acts k (h ▸ ha)
  omega

/-- Instance: the weights array returned by the first call keeps its content during a later call and a write to
the nodes. -/
example (a b : QAddr) (hab : b ≠ a) (x : ℕ → ℕ → ℝ) (ha : a ∈ (QSession.run [.call "RK4" "Z2N" false false fun _ => none]).known) :
    (QSession.run ([.call "RK4" "Z2N" false false fun _ => none] ++
      [.write b x, .call "BE" "Z2N" false false fun _ => none])).heap.content a =
    (QSession.run [.call "RK4" "Z2N" false false fun _ => none]).heap.content a :=
  C70_stable _ _ a ha (by simp [Ne.symm hab])

/-- C70: after any history, a returned array is either an attribute of the class, and then the class is a
Runge-Kutta class that was called without padding, or it is new: the program did not have it before. -/
theorem C70_fresh (acts : List QAction) (q form : String) (h e : Bool) (params : PyDict PyVal)
    (out : Σ M, QCoeffs M) (r : QRet) (t : QHeap)
    (hr : genQCoeffsH q form h e params (QSession.run acts).heap = (.ok (out, r), t)) (a : QAddr)
    (ha : a ∈ r.arrays) :
    (∃ T ∈ Tables.rkSchemes, ∃ attr, Q_GENERATORS q = some (.rk T) ∧ out.1 = T.c.length ∧ a = .cls T.name attr) ∨
    ((∃ k, a = .new k) ∧ a ∉ (QSession.run acts).known) := by
  rcases genQCoeffsH_cases q form h e params (QSession.run acts).heap with ⟨err, he⟩ | ⟨out', own, he, hc⟩
  · rw [he] at hr; cases hr
  · rw [he] at hr
    cases hr
    rcases (returnArrays_spec own form e out.2 (QSession.run acts).heap _ _ rfl).2.1 a ha with ⟨name, attr, ho, rfl⟩ | ⟨k, rfl, hk, -⟩
    · rcases hc with ⟨-, hn⟩ | ⟨T, g, hT, -, hg, hM, -⟩
      · rw [hn] at ho; cases ho
      · rcases hg with ⟨hn, hg⟩ | hn
        · rw [hn] at ho
          cases ho
          rcases Q_GENERATORS_cases hT with ⟨h, -⟩ | ⟨U, hU, h, -⟩
          · cases h
          · cases h
            refine Or.inl ⟨T, hU, attr, hT, ?_, rfl⟩
            rw [hM, hg]
            rfl
        · rw [hn] at ho; cases ho
    · refine Or.inr ⟨⟨k, rfl⟩, fun hk' => ?_⟩
      have := QSession.valid_run acts k hk'
      omega

/-- C70: the returned arrays contain the returned values. -/
theorem C70_content (acts : List QAction) (q form : String) (h e : Bool) (params : PyDict PyVal) (M : ℕ)
    (out : QCoeffs M) (r : QRet) (t : QHeap)
    (hr : genQCoeffsH q form h e params (QSession.run acts).heap = (.ok (⟨M, out⟩, r), t)) (i : Fin M) :
    t.content r.nodes 0 i = out.nodes i ∧ t.content r.weights 0 i = out.weights i ∧
    (∀ w, out.weights2 = some w → t.content r.weights 1 i = w i) ∧
    (∀ j : Fin M, t.content r.mat i j = out.mat i j) ∧
    (out.hCoeffs = none → r.hCoeffs = none) ∧
    (∀ v, out.hCoeffs = some v → ∃ a, r.hCoeffs = some a ∧ t.content a 0 i = v i) := by
  rcases genQCoeffsH_cases q form h e params (QSession.run acts).heap with ⟨err, he⟩ | ⟨out', own, he, hc⟩
  · rw [he] at hr; cases hr
  · rw [he] at hr
    cases hr
    obtain ⟨hx, -, h1, h2, h3, h4⟩ := returnArrays_spec own form e out (QSession.run acts).heap
      (returnArrays own form e out (QSession.run acts).heap).1
      (returnArrays own form e out (QSession.run acts).heap).2 rfl
    generalize (returnArrays own form e out (QSession.run acts).heap).1 = r at *
    generalize (returnArrays own form e out (QSession.run acts).heap).2 = t at *
    -- the values of an object that has the arrays of its class
    have hown : ∀ name, own = some name →
        out.nodes i = (QSession.run acts).heap.content (.cls name .c) 0 i ∧
        out.weights i = (QSession.run acts).heap.content (.cls name .b) 0 i ∧
        (e = false → out.weights2 = none) ∧
        (form = "Z2N" → ∀ j, out.mat i j = (QSession.run acts).heap.content (.cls name .A) i j) := by
      intro name ho
      rcases hc with ⟨-, hn⟩ | ⟨T, g, hT, -, hg, hM, hgen⟩
      · rw [hn] at ho; cases ho
      rcases hg with ⟨hn, rfl⟩ | hn
      swap
      · rw [hn] at ho; cases ho
      rw [hn] at ho
      cases ho
      change M = T.toRK.s at hM
      subst hM
      obtain ⟨p1, p2, p3, p4, -⟩ := genCoeffs_parts _ _ _ _ _ hgen
      refine ⟨congrFun p1 i, congrFun p2 i, p4, fun hf j => ?_⟩
      rcases p3 with ⟨-, p3⟩ | ⟨p3, -⟩
      · exact congrFun (congrFun p3 i) j
      · rw [hf] at p3; exact absurd p3 (by decide)
    refine ⟨?_, ?_, ?_, ?_, ?_, ?_⟩
    · rcases h1 with ⟨name, ho, ha⟩ | ⟨-, k, -, hcont⟩
      · rw [ha, hx.cls, (hown name ho).1]
      · rw [hcont]; simp [vecContent]
    · rcases h2 with ⟨name, ho, -, ha⟩ | ⟨-, k, -, hcont⟩
      · rw [ha, hx.cls, (hown name ho).2.1]
      · rw [hcont]
        unfold weightsContent
        cases out.weights2 <;> simp [vecContent]
    · intro w hw
      rcases h2 with ⟨name, ho, he', -⟩ | ⟨-, k, -, hcont⟩
      · rw [(hown name ho).2.2.1 he'] at hw; cases hw
      · rw [hcont]
        simp [weightsContent, hw, vecContent]
    · intro j
      rcases h3 with ⟨name, ho, hf, ha⟩ | ⟨-, k, -, hcont⟩
      · rw [ha, hx.cls, (hown name ho).2.2.2 hf]
      · rw [hcont]; simp [matContent]
    · intro hn
      rcases h4 with ⟨-, h⟩ | ⟨v, a, k, h, -⟩
      · exact h
      · rw [h] at hn; cases hn
    · intro v hv
      rcases h4 with ⟨h, -⟩ | ⟨v', a, k, h, h', -, hcont⟩
      · rw [h] at hv; cases hv
      · rw [h] at hv
        cases hv
        exact ⟨a, h', by rw [hcont]; simp [vecContent]⟩

/-- An unpadded call, whatever the class arrays contain. -/
theorem genQCoeffsH_unpadded (s : QHeap) (T : RKTable) (hT : T ∈ Tables.rkSchemes) (k : String)
    (hk : k = T.name ∨ k ∈ T.aliases) (form : String) (hform : form = "Z2N" ∨ form = "N2N") (h : Bool) :
    ∃ out : QCoeffs T.c.length, ∃ r t, genQCoeffsH k form h false (fun _ => none) s = (.ok (⟨_, out⟩, r), t) ∧
      s.Extends t ∧
      r.nodes = .cls T.name .c ∧ r.weights = .cls T.name .b ∧ (form = "Z2N" → r.mat = .cls T.name .A) ∧
      (∀ i, out.nodes i = s.content (.cls T.name .c) 0 i) ∧ (∀ i, out.weights i = s.content (.cls T.name .b) 0 i) ∧
      (form = "Z2N" → ∀ i j, out.mat i j = s.content (.cls T.name .A) i j) := by
  have hS : (s.readRK T).toQGenerator.S = .ok (qgenS (s.readRK T).A) := rfl
  obtain ⟨out, hout⟩ := genCoeffs_total (s.readRK T).toQGenerator form h false _ hform hS (by simp)
    (fun _ => rk_hCoeffs_total _)
  obtain ⟨p1, p2, p3, -⟩ := genCoeffs_parts _ _ _ _ _ hout
  rcases hr : returnArrays (some T.name) form false out s with ⟨r, t⟩
  refine ⟨out, r, t, ?_, ?_⟩
  · unfold genQCoeffsH
    rw [Q_GENERATORS_rk hT hk]
    simp only [callRK_none, hout, bind, Except.bind, pure, Except.pure, paramPadding, hr]
    rfl
  · obtain ⟨hx, -, h1, h2, h3, -⟩ := returnArrays_spec (some T.name) form false out s r t hr
    refine ⟨hx, ?_, ?_, fun hf => ?_, fun i => congrFun p1 i, fun i => congrFun p2 i, fun hf i j => ?_⟩
    · rcases h1 with ⟨n, ho, h1⟩ | ⟨ho, -⟩
      · cases ho; exact h1
      · cases ho
    · rcases h2 with ⟨n, ho, -, h2⟩ | ⟨ho, -⟩
      · cases ho; exact h2
      · simp at ho
    · rcases h3 with ⟨n, ho, -, h3⟩ | ⟨ho, -⟩
      · cases ho; exact h3
      · simp [hf] at ho
    · rcases p3 with ⟨-, p3⟩ | ⟨p3, -⟩
      · exact congrFun (congrFun p3 i) j
      · rw [hf] at p3; exact absurd p3 (by decide)

/-- C70, finding: for every Runge-Kutta class, the arrays returned without padding are those of the class.  A
program that writes to one of them changes what all later calls return. -/
theorem C70_rk_fails (T : RKTable) (hT : T ∈ Tables.rkSchemes) (k k' : String)
    (hk : k = T.name ∨ k ∈ T.aliases) (hk' : k' = T.name ∨ k' ∈ T.aliases) (x : ℕ → ℕ → ℝ) :
    ∃ out r t, genQCoeffsH k "Z2N" false false (fun _ => none) QHeap.init = (.ok (out, r), t) ∧
      (∃ out' : QCoeffs T.c.length, (genQCoeffsH k' "Z2N" false false (fun _ => none)
          (QSession.run [.call k "Z2N" false false fun _ => none, .write r.mat x]).heap).1.map Prod.fst =
            .ok ⟨_, out'⟩ ∧ ∀ i j, out'.mat i j = x i j) ∧
      (∃ out' : QCoeffs T.c.length, (genQCoeffsH k' "Z2N" false false (fun _ => none)
          (QSession.run [.call k "Z2N" false false fun _ => none, .write r.weights x]).heap).1.map Prod.fst =
            .ok ⟨_, out'⟩ ∧ ∀ i, out'.weights i = x 0 i) ∧
      (∃ out' : QCoeffs T.c.length, (genQCoeffsH k' "Z2N" false false (fun _ => none)
          (QSession.run [.call k "Z2N" false false fun _ => none, .write r.nodes x]).heap).1.map Prod.fst =
            .ok ⟨_, out'⟩ ∧ ∀ i, out'.nodes i = x 0 i) := by
  obtain ⟨out, r, t, hr, -, hn, hw, hm, -⟩ := genQCoeffsH_unpadded QHeap.init T hT k hk "Z2N" (Or.inl rfl) false
  have hm := hm rfl
  have hrun : ∀ a ∈ r.arrays, (QSession.run [.call k "Z2N" false false fun _ => none, .write a x]).heap.content a =
      x := by
    intro a ha
    unfold QSession.run
    simp only [List.foldl_cons, List.foldl_nil, QSession.act, hr]
    rw [if_pos (List.mem_append_left _ ha)]
    simp
  refine ⟨_, r, t, hr, ?_, ?_, ?_⟩
  · obtain ⟨out', r', t', h', -, -, -, -, -, -, h⟩ := genQCoeffsH_unpadded
      (QSession.run [.call k "Z2N" false false fun _ => none, .write r.mat x]).heap T hT k' hk' "Z2N" (Or.inl rfl)
      false
    refine ⟨out', by rw [h']; rfl, fun i j => ?_⟩
    rw [h rfl, ← hm, hrun _ (by simp [QRet.arrays])]
  · obtain ⟨out', r', t', h', -, -, -, -, -, h, -⟩ := genQCoeffsH_unpadded
      (QSession.run [.call k "Z2N" false false fun _ => none, .write r.weights x]).heap T hT k' hk' "Z2N"
      (Or.inl rfl) false
    refine ⟨out', by rw [h']; rfl, fun i => ?_⟩
    rw [h, ← hw, hrun _ (by simp [QRet.arrays])]
  · obtain ⟨out', r', t', h', -, -, -, -, h, -⟩ := genQCoeffsH_unpadded
      (QSession.run [.call k "Z2N" false false fun _ => none, .write r.nodes x]).heap T hT k' hk' "Z2N"
      (Or.inl rfl) false
    refine ⟨out', by rw [h']; rfl, fun i => ?_⟩
    rw [h, ← hn, hrun _ (by simp [QRet.arrays])]

/-- C70, instance of the histories: two calls and a write to an array of another class. -/
example (x : ℕ → ℕ → ℝ) :
    (genQCoeffsH "RK4" "Z2N" false false (fun _ => none) (QSession.run
      [.call "RK4" "Z2N" false false fun _ => none, .call "BE" "Z2N" false false fun _ => none,
        .write (.cls Tables.tBE.name .A) x]).heap).1.map Prod.fst = genQCoeffs "RK4" :=
  C70_isolated _ Tables.tRK4 (by simp [Tables.rkSchemes]) "RK4" (by decide)
    (by intro attr x; simp [Tables.tRK4, Tables.tBE]) _ _ _ _

end QMat
