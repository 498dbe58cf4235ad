import Verif.Model.Registry
import Verif.Model.QDeltaGen
import Verif.Model.Tables

/-!
# C65–C68: the registries
-/

namespace QMat.Registry

/-! ## Storing -/

/-- The keys under which a class is to be stored: its name and its `aliases`, own or inherited; `none` when
`aliases` is neither missing, empty nor a list. -/
def classKeys (h : Heap) (cls : ℕ) : Option (List String) :=
  match getattr h cls "aliases" with
  | none | some .none | some (.bool false) => some [(h cls).name]
  | some (.strList l) => some ((h cls).name :: l)
  | some _ => none

/-- All keys are new and different. -/
def Fresh (d : Dict) (ks : List String) : Prop := ks.Nodup ∧ ∀ k ∈ ks, d.lookup k = none

theorem lookup_append (d e : Dict) (k : String) :
    (d ++ e).lookup k = (d.lookup k).or (e.lookup k) := by
  induction d with
  | nil => simp
  | cons p d ih =>
    obtain ⟨a, b⟩ := p
    simp only [List.cons_append, List.lookup_cons]
    split
    · simp
    · exact ih

theorem lookup_const (ks : List String) (cls : ℕ) (k : String) :
    (ks.map fun k => (k, cls)).lookup k = if k ∈ ks then some cls else none := by
  induction ks with
  | nil => simp
  | cons a ks ih =>
    simp only [List.map_cons, List.lookup_cons, ih, List.mem_cons]
    by_cases h : k = a
    · simp [h]
    · have : (k == a) = false := by simpa using h
      simp [this, h]

/-- `storeAliases` appends the keys up to the first that is taken. -/
theorem storeAliases_spec (cls : ℕ) (d : Dict) (ks : List String) :
    ∃ n ≤ ks.length, (storeAliases cls d ks).1 = d ++ (ks.take n).map (fun k => (k, cls)) ∧
      Fresh d (ks.take n) ∧
      ((storeAliases cls d ks).2 = .ok () ∧ n = ks.length ∨
        (storeAliases cls d ks).2 = .error .assertionError ∧
          ∃ k, ks[n]? = some k ∧ (k ∈ ks.take n ∨ d.lookup k ≠ none)) := by
  induction ks generalizing d with
  | nil => exact ⟨0, le_rfl, by simp [storeAliases], by simp [Fresh], by simp [storeAliases]⟩
  | cons a ks ih =>
    by_cases ha : (d.lookup a).isSome
    · refine ⟨0, by simp, ?_, by simp [Fresh], Or.inr ⟨?_, a, by simp, Or.inr ?_⟩⟩
      · simp [storeAliases, storeAlias, ha]
      · simp [storeAliases, storeAlias, ha]
      · exact Option.isSome_iff_ne_none.mp ha
    · have ha' : d.lookup a = none := Option.not_isSome_iff_eq_none.mp ha
      obtain ⟨n, hn, h1, h2, h3⟩ := ih (d ++ [(a, cls)])
      have e : storeAliases cls d (a :: ks) = storeAliases cls (d ++ [(a, cls)]) ks := by
        simp [storeAliases, storeAlias, ha']
      have hlk : ∀ k, (d ++ [(a, cls)]).lookup k = none ↔ d.lookup k = none ∧ k ≠ a := fun k => by
        rw [lookup_append]
        by_cases hk : k = a
        · subst hk; simp [ha']
        · have : (k == a) = false := by simpa using hk
          simp [List.lookup_cons, this, hk]
      refine ⟨n + 1, by simpa using hn, ?_, ?_, ?_⟩
      · rw [e, h1]
        simp
      · refine ⟨?_, ?_⟩
        · rw [List.take_succ_cons, List.nodup_cons]
          exact ⟨fun hmem => ((hlk a).mp (h2.2 a hmem)).2 rfl, h2.1⟩
        · rw [List.take_succ_cons]
          intro k hk
          rcases List.mem_cons.mp hk with rfl | hk
          · exact ha'
          · exact ((hlk k).mp (h2.2 k hk)).1
      · rw [e]
        rcases h3 with ⟨h3, h4⟩ | ⟨h3, k, h4, h5⟩
        · exact Or.inl ⟨h3, by simpa using h4⟩
        · refine Or.inr ⟨h3, k, by simpa using h4, ?_⟩
          rw [List.take_succ_cons, List.mem_cons]
          rcases h5 with h5 | h5
          · exact Or.inl (Or.inr h5)
          · rw [ne_eq, hlk] at h5
            by_cases hk : k = a
            · exact Or.inl (Or.inl hk)
            · exact Or.inr fun h0 => h5 ⟨h0, hk⟩

theorem storeClass_keys {h : Heap} {cls : ℕ} {ks : List String} (hk : classKeys h cls = some ks) (d : Dict) :
    storeClass h cls d = storeAliases cls d ks := by
  unfold classKeys at hk
  unfold storeClass
  rw [show storeAliases cls d ks = match storeAliases cls d ks with | r => r from rfl]
  split at hk
  all_goals try cases hk
  all_goals (simp only [storeAliases]; rcases storeAlias cls d (h cls).name with ⟨d', _ | ⟨⟨⟩⟩⟩ <;> simp_all)
  rename_i l hl
  cases l <;> simp [storeAliases]

theorem storeClass_bad {h : Heap} {cls : ℕ} (hk : classKeys h cls = none) (d : Dict) :
    storeClass h cls d = ((storeAlias cls d (h cls).name).1, .error .assertionError) := by
  unfold classKeys at hk
  unfold storeClass
  have : ∀ r : Dict × PyResult Unit, r = storeAlias cls d (h cls).name →
      (∃ d', r = (d', .ok ()) ∨ r = (d', .error .assertionError)) := by
    rintro r rfl
    unfold storeAlias
    split
    · exact ⟨_, Or.inr rfl⟩
    · exact ⟨_, Or.inl rfl⟩
  obtain ⟨d', h1 | h1⟩ := this _ rfl
  · rw [h1]
    split at hk
    all_goals try cases hk
    rename_i v hn hf hl hv
    simp only [hv]
    split
    · rename_i hh; cases hh
    · rename_i hh; exact absurd (Option.some.inj hh) hn
    · rename_i hh; exact absurd (Option.some.inj hh) (hl [])
    · rename_i hh; exact absurd (Option.some.inj hh) hf
    · rename_i hh; exact absurd (Option.some.inj hh) (hl _)
    · rfl
  · rw [h1]

/-- What every registering function does to a registry: it appends, for the class, new keys that are
an initial segment of the name and the aliases. -/
structure Stores (h : Heap) (cls : ℕ) (d d' : Dict) (r : PyResult Unit) : Prop where
  seg : ∃ ks, ks <+: ((h cls).name :: (match getattr h cls "aliases" with | some (.strList l) => l | _ => [])) ∧
    d' = d ++ ks.map (fun k => (k, cls)) ∧ Fresh d ks
  all : r = .ok () → ∃ ks, classKeys h cls = some ks ∧ d' = d ++ ks.map (fun k => (k, cls)) ∧ Fresh d ks

theorem classKeys_eq {h : Heap} {cls : ℕ} {ks : List String} (hk : classKeys h cls = some ks) :
    ks = (h cls).name :: (match getattr h cls "aliases" with | some (.strList l) => l | _ => []) := by
  unfold classKeys at hk
  split at hk <;> simp_all

theorem storeClass_stores (h : Heap) (cls : ℕ) (d : Dict) :
    Stores h cls d (storeClass h cls d).1 (storeClass h cls d).2 := by
  rcases hk : classKeys h cls with _ | ks
  · rw [storeClass_bad hk]
    refine ⟨?_, by simp⟩
    obtain ⟨n, hn, h1, h2, -⟩ := storeAliases_spec cls d [(h cls).name]
    have e : (storeAliases cls d [(h cls).name]).1 = (storeAlias cls d (h cls).name).1 := by
      simp only [storeAliases]
      rcases storeAlias cls d (h cls).name with ⟨d', _ | ⟨⟨⟩⟩⟩ <;> simp
    refine ⟨_, (List.take_prefix n _).trans ?_, by rw [← e]; exact h1, h2⟩
    exact ⟨_, rfl⟩
  · rw [storeClass_keys hk]
    obtain ⟨n, hn, h1, h2, h3⟩ := storeAliases_spec cls d ks
    refine ⟨⟨ks.take n, by rw [← classKeys_eq hk]; exact List.take_prefix n ks, h1, h2⟩, fun hok => ?_⟩
    rcases h3 with ⟨-, rfl⟩ | ⟨h3, -⟩
    · rw [List.take_length] at h1 h2
      exact ⟨ks, hk, h1, h2⟩
    · rw [hok] at h3
      cases h3

theorem stores_refl (h : Heap) (cls : ℕ) (d : Dict) (e : PyErr) : Stores h cls d d (.error e) :=
  ⟨⟨[], List.nil_prefix, by simp, by simp [Fresh]⟩, by simp⟩

theorem storeClass_ok_iff (h : Heap) (cls : ℕ) (d : Dict) :
    (storeClass h cls d).2 = .ok () ↔ ∃ ks, classKeys h cls = some ks ∧ Fresh d ks := by
  constructor
  · intro hok
    obtain ⟨ks, hk, -, hf⟩ := (storeClass_stores h cls d).all hok
    exact ⟨ks, hk, hf⟩
  · rintro ⟨ks, hk, hf⟩
    rw [storeClass_keys hk]
    obtain ⟨n, hn, h1, h2, h3⟩ := storeAliases_spec cls d ks
    rcases h3 with ⟨h3, -⟩ | ⟨-, k, h4, h5⟩
    · exact h3
    · exfalso
      obtain ⟨hlt, hkn⟩ := List.getElem?_eq_some_iff.mp h4
      rcases h5 with h5 | h5
      · obtain ⟨i, hi, hik⟩ := List.mem_iff_getElem.mp h5
        rw [List.length_take] at hi
        rw [List.getElem_take] at hik
        have := (List.Nodup.getElem_inj_iff hf.1).mp (hik.trans hkn.symm)
        omega
      · exact h5 (hf.2 k (hkn ▸ List.getElem_mem hlt))

/-! ## C65 -/

/-- `Q_GENERATORS` after `register` was called for each class of a list, in order; a call that raises is
caught by the caller. -/
def runQ (h : Heap) (d : Dict) (cs : List ℕ) : Dict := cs.foldl (fun d c => (registerQ h c d).1) d

/-- The same for `QDELTA_GENERATORS`, whose `register` also changes the classes. -/
def runQDelta (s : Heap × Dict) (cs : List ℕ) : Heap × Dict :=
  cs.foldl (fun s c => ((registerQDelta s.1 c s.2).1, (registerQDelta s.1 c s.2).2.1)) s

/-- The same for `RK_SCHEMES` and `Q_GENERATORS` with `registerRK`. -/
def runRK (h : Heap) (t : ℕ → RKAttrs) (s : Dict × Dict) (cs : List ℕ) : Dict × Dict :=
  cs.foldl (fun s c => (registerRK h c (t c) s.1 s.2).1) s

theorem registerQ_stores (h : Heap) (cls : ℕ) (d : Dict) :
    Stores h cls d (registerQ h cls d).1 (registerQ h cls d).2 := by
  unfold registerQ
  split
  · exact stores_refl _ _ _ _
  · exact storeClass_stores h cls d

theorem getattr_setattr_ne (h : Heap) (cls c : ℕ) {n m : String} (hne : m ≠ n) (v : PyAttr) :
    getattr (setattr h cls n v) c m = getattr h c m := by
  have hm : ((setattr h cls n v) c).mro = (h c).mro := by
    unfold setattr
    by_cases hc : c = cls
    · subst hc; simp
    · simp [hc]
  have hl : ∀ c', ((setattr h cls n v) c').attrs.lookup m = (h c').attrs.lookup m := fun c' => by
    unfold setattr
    by_cases hc : c' = cls
    · subst hc
      have : (m == n) = false := by simpa using hne
      simp [List.lookup_cons, this]
    · simp [hc]
  unfold getattr
  rw [hm]
  simp only [hl]

theorem setattr_name (h : Heap) (cls c : ℕ) (n : String) (v : PyAttr) :
    ((setattr h cls n v) c).name = (h c).name ∧ ((setattr h cls n v) c).mro = (h c).mro ∧
      ((setattr h cls n v) c).module = (h c).module := by
  unfold setattr
  by_cases hc : c = cls
  · subst hc; simp
  · simp [hc]

/-- Two heaps with the same names, modules, MROs and attributes other than `__init__`, `_K_DEPENDENT`. -/
structure SameKeys (h h' : Heap) : Prop where
  name : ∀ c, (h' c).name = (h c).name
  module : ∀ c, (h' c).module = (h c).module
  mro : ∀ c, (h' c).mro = (h c).mro
  attr : ∀ c n, n ≠ "__init__" → n ≠ "_K_DEPENDENT" → getattr h' c n = getattr h c n

theorem SameKeys.refl (h : Heap) : SameKeys h h := ⟨fun _ => rfl, fun _ => rfl, fun _ => rfl, fun _ _ _ _ => rfl⟩

theorem SameKeys.trans {h h' h'' : Heap} (a : SameKeys h h') (b : SameKeys h' h'') : SameKeys h h'' :=
  ⟨fun c => (b.name c).trans (a.name c), fun c => (b.module c).trans (a.module c),
    fun c => (b.mro c).trans (a.mro c), fun c n h1 h2 => (b.attr c n h1 h2).trans (a.attr c n h1 h2)⟩

theorem SameKeys.set (h : Heap) (cls : ℕ) {n : String} (hn : n = "__init__" ∨ n = "_K_DEPENDENT") (v : PyAttr) :
    SameKeys h (setattr h cls n v) :=
  ⟨fun c => (setattr_name h cls c n v).1, fun c => (setattr_name h cls c n v).2.2,
    fun c => (setattr_name h cls c n v).2.1, fun c m h1 h2 => getattr_setattr_ne h cls c (by
      rcases hn with rfl | rfl
      · exact h1
      · exact h2) v⟩

theorem SameKeys.classKeys {h h' : Heap} (s : SameKeys h h') (c : ℕ) : classKeys h' c = classKeys h c := by
  unfold Registry.classKeys
  rw [s.attr c "aliases" (by decide) (by decide), s.name c]

theorem SameKeys.stores {h h' : Heap} (s : SameKeys h h') {c : ℕ} {d d' : Dict} {r : PyResult Unit}
    (hs : Stores h' c d d' r) : Stores h c d d' r := by
  obtain ⟨h1, h2⟩ := hs
  rw [s.attr c "aliases" (by decide) (by decide), s.name c] at h1
  rw [s.classKeys c] at h2
  exact ⟨h1, h2⟩

theorem registerQDelta_stores (h : Heap) (cls : ℕ) (d : Dict) :
    SameKeys h (registerQDelta h cls d).1 ∧
    Stores h cls d (registerQDelta h cls d).2.1 (registerQDelta h cls d).2.2 := by
  unfold registerQDelta
  split
  · exact ⟨.refl h, stores_refl _ _ _ _⟩
  split
  · exact ⟨.refl h, stores_refl _ _ _ _⟩
  split
  swap
  · exact ⟨.refl h, stores_refl _ _ _ _⟩
  split
  · exact ⟨.refl h, stores_refl _ _ _ _⟩
  split
  swap
  · exact ⟨.refl h, stores_refl _ _ _ _⟩
  rename_i par _ _
  simp only
  have hs : SameKeys h (if par.defaultNone = true then h else setattr h cls "_K_DEPENDENT" (.bool true)) := by
    split
    · exact .refl h
    · exact .set h cls (Or.inr rfl) _
  generalize (if par.defaultNone = true then h else setattr h cls "_K_DEPENDENT" (.bool true)) = h' at hs
  split
  · rename_i i ps _
    have hs2 := hs.trans (.set h' cls (Or.inl rfl) (.function i ps))
    exact ⟨hs2, hs2.stores (storeClass_stores _ cls d)⟩
  · exact ⟨hs, stores_refl _ _ _ _⟩

theorem checkAndStore_stores (h : Heap) (cls : ℕ) (t : RKAttrs) (d : Dict) :
    Stores h cls d (checkAndStore h cls t d).1 (checkAndStore h cls t d).2 := by
  unfold checkAndStore
  split
  · exact stores_refl _ _ _ _
  split_ifs
  · exact stores_refl _ _ _ _
  · exact stores_refl _ _ _ _
  split
  · exact stores_refl _ _ _ _
  · exact stores_refl _ _ _ _
  · exact storeClass_stores h cls d

theorem Stores.mono {h : Heap} {cls : ℕ} {d d' : Dict} {r : PyResult Unit} (s : Stores h cls d d' r)
    {k : String} {c : ℕ} (hk : d.lookup k = some c) : d'.lookup k = some c := by
  obtain ⟨ks, -, rfl, -⟩ := s.seg
  rw [lookup_append, hk]
  rfl

theorem Stores.resolve {h : Heap} {cls : ℕ} {d d' : Dict} {r : PyResult Unit} (s : Stores h cls d d' r)
    (hr : r = .ok ()) : ∃ ks, classKeys h cls = some ks ∧ ∀ k ∈ ks, d'.lookup k = some cls := by
  obtain ⟨ks, hk, rfl, hf⟩ := s.all hr
  refine ⟨ks, hk, fun k hmem => ?_⟩
  rw [lookup_append, hf.2 k hmem, lookup_const, if_pos hmem]
  rfl

/-- C65, `Q_GENERATORS`: whatever calls of `register` follow, successful or not, no key ever changes its
class, and a class whose registration succeeded is found under its name and every alias. -/
theorem C65_q_history (h : Heap) (d : Dict) (pre : List ℕ) (c : ℕ) (post : List ℕ) :
    (∀ k c', (runQ h d pre).lookup k = some c' → (runQ h d (pre ++ c :: post)).lookup k = some c') ∧
    ((registerQ h c (runQ h d pre)).2 = .ok () → ∃ ks, classKeys h c = some ks ∧
      ∀ k ∈ ks, (runQ h d (pre ++ c :: post)).lookup k = some c) := by
  have mono : ∀ (cs : List ℕ) (d : Dict) k c', d.lookup k = some c' → (runQ h d cs).lookup k = some c' := by
    intro cs
    induction cs with
    | nil => exact fun d k c' hk => hk
    | cons a cs ih => exact fun d k c' hk => ih _ k c' ((registerQ_stores h a d).mono hk)
  have e : runQ h d (pre ++ c :: post) = runQ h (registerQ h c (runQ h d pre)).1 post := by
    simp [runQ, List.foldl_append]
  rw [e]
  refine ⟨fun k c' hk => mono post _ k c' ((registerQ_stores h c _).mono hk), fun hok => ?_⟩
  obtain ⟨ks, hks, hr⟩ := (registerQ_stores h c _).resolve hok
  exact ⟨ks, hks, fun k hk => mono post _ k c (hr k hk)⟩

theorem runQDelta_sameKeys (s : Heap × Dict) (cs : List ℕ) : SameKeys s.1 (runQDelta s cs).1 := by
  induction cs generalizing s with
  | nil => exact .refl _
  | cons a cs ih =>
    exact (registerQDelta_stores s.1 a s.2).1.trans (ih ((registerQDelta s.1 a s.2).1, (registerQDelta s.1 a s.2).2.1))

/-- C65, `QDELTA_GENERATORS`: the same; the names and aliases are those of the classes before any
registration. -/
theorem C65_qdelta_history (h : Heap) (d : Dict) (pre : List ℕ) (c : ℕ) (post : List ℕ) :
    (∀ k c', (runQDelta (h, d) pre).2.lookup k = some c' →
      (runQDelta (h, d) (pre ++ c :: post)).2.lookup k = some c') ∧
    ((registerQDelta (runQDelta (h, d) pre).1 c (runQDelta (h, d) pre).2).2.2 = .ok () →
      ∃ ks, classKeys h c = some ks ∧
        ∀ k ∈ ks, (runQDelta (h, d) (pre ++ c :: post)).2.lookup k = some c) := by
  have mono : ∀ (cs : List ℕ) (s : Heap × Dict) k c', s.2.lookup k = some c' →
      (runQDelta s cs).2.lookup k = some c' := by
    intro cs
    induction cs with
    | nil => exact fun s k c' hk => hk
    | cons a cs ih => exact fun s k c' hk => ih _ k c' ((registerQDelta_stores s.1 a s.2).2.mono hk)
  have e : runQDelta (h, d) (pre ++ c :: post) =
      runQDelta ((registerQDelta (runQDelta (h, d) pre).1 c (runQDelta (h, d) pre).2).1,
        (registerQDelta (runQDelta (h, d) pre).1 c (runQDelta (h, d) pre).2).2.1) post := by
    simp [runQDelta, List.foldl_append]
  rw [e]
  refine ⟨fun k c' hk => mono post _ k c' ((registerQDelta_stores _ c _).2.mono hk), fun hok => ?_⟩
  obtain ⟨ks, hks, hr⟩ := (registerQDelta_stores _ c _).2.resolve hok
  rw [(runQDelta_sameKeys (h, d) pre).classKeys c] at hks
  exact ⟨ks, hks, fun k hk => mono post _ k c (hr k hk)⟩

/-- C65, `registerRK`: the same for both registries. -/
theorem C65_rk_history (h : Heap) (t : ℕ → RKAttrs) (rk q : Dict) (pre : List ℕ) (c : ℕ) (post : List ℕ) :
    (∀ k c', (runRK h t (rk, q) pre).1.lookup k = some c' →
      (runRK h t (rk, q) (pre ++ c :: post)).1.lookup k = some c') ∧
    (∀ k c', (runRK h t (rk, q) pre).2.lookup k = some c' →
      (runRK h t (rk, q) (pre ++ c :: post)).2.lookup k = some c') ∧
    ((registerRK h c (t c) (runRK h t (rk, q) pre).1 (runRK h t (rk, q) pre).2).2 = .ok () →
      ∃ ks, classKeys h c = some ks ∧ ∀ k ∈ ks,
        (runRK h t (rk, q) (pre ++ c :: post)).1.lookup k = some c ∧
        (runRK h t (rk, q) (pre ++ c :: post)).2.lookup k = some c) := by
  have step1 : ∀ c (s : Dict × Dict), Stores h c s.1 (registerRK h c (t c) s.1 s.2).1.1
      (checkAndStore h c (t c) s.1).2 := fun c s => by
    have := checkAndStore_stores h c (t c) s.1
    unfold registerRK
    rcases hc : checkAndStore h c (t c) s.1 with ⟨d', _ | ⟨⟨⟩⟩⟩ <;> rw [hc] at this <;> exact this
  have step2 : ∀ c (s : Dict × Dict), Stores h c s.2 (registerRK h c (t c) s.1 s.2).1.2
      (registerRK h c (t c) s.1 s.2).2 := fun c s => by
    unfold registerRK
    rcases hc : checkAndStore h c (t c) s.1 with ⟨d', _ | ⟨⟨⟩⟩⟩
    · exact stores_refl _ _ _ _
    · exact registerQ_stores h c s.2
  have mono : ∀ (cs : List ℕ) (s : Dict × Dict),
      (∀ k c', s.1.lookup k = some c' → (runRK h t s cs).1.lookup k = some c') ∧
      (∀ k c', s.2.lookup k = some c' → (runRK h t s cs).2.lookup k = some c') := by
    intro cs
    induction cs with
    | nil => exact fun s => ⟨fun k c' hk => hk, fun k c' hk => hk⟩
    | cons a cs ih => exact fun s => ⟨fun k c' hk => (ih _).1 k c' ((step1 a s).mono hk),
        fun k c' hk => (ih _).2 k c' ((step2 a s).mono hk)⟩
  have e : runRK h t (rk, q) (pre ++ c :: post) = runRK h t
      (registerRK h c (t c) (runRK h t (rk, q) pre).1 (runRK h t (rk, q) pre).2).1 post := by
    simp [runRK, List.foldl_append]
  rw [e]
  refine ⟨fun k c' hk => (mono post _).1 k c' ((step1 c _).mono hk),
    fun k c' hk => (mono post _).2 k c' ((step2 c _).mono hk), fun hok => ?_⟩
  obtain ⟨ks, hks, hr⟩ := (step2 c (runRK h t (rk, q) pre)).resolve hok
  have hok1 : (checkAndStore h c (t c) (runRK h t (rk, q) pre).1).2 = .ok () := by
    unfold registerRK at hok
    rcases hc : checkAndStore h c (t c) (runRK h t (rk, q) pre).1 with ⟨d', _ | ⟨⟨⟩⟩⟩
    · rw [hc] at hok
      cases hok
    · rfl
  obtain ⟨ks', hks', hr'⟩ := (step1 c (runRK h t (rk, q) pre)).resolve hok1
  rw [hks] at hks'
  cases hks'
  exact ⟨ks, hks, fun k hk => ⟨(mono post _).1 k c (hr' k hk), (mono post _).2 k c (hr k hk)⟩⟩

/-- C65: a call for a class one of whose keys is taken (also by itself, or twice in its own aliases) raises. -/
theorem C65_no_overwrite (h : Heap) (c : ℕ) (d : Dict) (ks : List String) (hks : classKeys h c = some ks)
    (hbad : ¬ ks.Nodup ∨ ∃ k ∈ ks, d.lookup k ≠ none) :
    (registerQ h c d).2 ≠ .ok () ∧ (registerQDelta h c d).2.2 ≠ .ok () ∧
    ∀ t q, (registerRK h c t d q).2 ≠ .ok () := by
  have key : ∀ {d' r}, Stores h c d d' r → r ≠ .ok () := by
    intro d' r s hr
    obtain ⟨ks', hks', -, hf⟩ := s.all hr
    rw [hks] at hks'
    cases hks'
    rcases hbad with hb | ⟨k, hk, hb⟩
    · exact hb hf.1
    · exact hb (hf.2 k hk)
  refine ⟨key (registerQ_stores h c d), key (registerQDelta_stores h c d).2, fun t q => ?_⟩
  unfold registerRK
  have := key (checkAndStore_stores h c t d)
  rcases hc : checkAndStore h c t d with ⟨d', e | ⟨⟨⟩⟩⟩
  · exact fun h => by cases h
  · rw [hc] at this
    exact absurd rfl this

/-! ## C66 -/

/-- C66: what a raising call may leave behind: nothing, or an initial segment of the name and the aliases,
all for the class of the call, all new; other keys are untouched. -/
theorem C66_trace_bound (h : Heap) (c : ℕ) (d : Dict) :
    ∃ ks, ks <+: ((h c).name :: (match getattr h c "aliases" with | some (.strList l) => l | _ => [])) ∧
      (∀ k ∈ ks, d.lookup k = none) ∧
      (∀ k, (registerQ h c d).1.lookup k = if k ∈ ks then some c else d.lookup k) := by
  obtain ⟨ks, h1, h2, h3⟩ := (registerQ_stores h c d).seg
  refine ⟨ks, h1, h3.2, fun k => ?_⟩
  rw [h2, lookup_append, lookup_const]
  split_ifs with hk
  · rw [h3.2 k hk]; rfl
  · simp

/-- C66: a call that raises because the name is taken, or because a check fails, leaves the registry
unchanged. -/
theorem C66_unchanged (h : Heap) (c : ℕ) (d : Dict)
    (hbad : checkQGenerator h c ≠ .ok () ∨ d.lookup (h c).name ≠ none) :
    (registerQ h c d).1 = d ∧ (registerQ h c d).2 ≠ .ok () := by
  unfold registerQ
  split
  · exact ⟨rfl, fun h => by cases h⟩
  · rename_i hok
    rcases hbad with hb | hb
    · exact absurd hok hb
    · have hs : (d.lookup (h c).name).isSome := Option.isSome_iff_ne_none.mpr hb
      simp [storeClass, storeAlias, hs]

/-! Concrete classes: `0` is `object`, `1` the base class `QGenerator`, `2`, `3`, ... generators. -/

/-- A generator class with its own four properties. -/
def genClass (id : ℕ) (name : String) (attrs : List (String × PyAttr)) : PyClass where
  name := name
  module := "qmat.qcoeff.user"
  mro := [id, 1, 0]
  attrs := attrs ++ [("nodes", .property (10 * id)), ("Q", .property (10 * id + 1)),
    ("weights", .property (10 * id + 2)), ("order", .property (10 * id + 3))]

/-- `object` and the base class. -/
def baseClass (i : ℕ) : PyClass :=
  if i = 0 then { name := "object", module := "builtins", mro := [0], attrs := [] }
  else { name := "QGenerator", module := "qmat.qcoeff", mro := [1, 0], attrs := [("nodes", .property 0), ("Q", .property 1), ("weights", .property 2), ("order", .property 3)] }

/-- Two generators, the second with an alias of the first, and a third one without `aliases`. -/
def exampleHeap : Heap := fun i =>
  if i = 2 then genClass 2 "Foo" [("aliases", .strList ["F1", "F2"])]
  else if i = 3 then genClass 3 "Bar" [("aliases", .strList ["B1", "F2", "B2"])]
  else if i = 4 then genClass 4 "Baz" []
  else baseClass i

/-- C65, instance: registrations of the example; the second class is refused, the third is stored. -/
example : (registerQ exampleHeap 2 []).2 = .ok () ∧
    (registerQ exampleHeap 3 (runQ exampleHeap [] [2])).2 = .error .assertionError ∧
    (registerQ exampleHeap 4 (runQ exampleHeap [] [2, 3])).2 = .ok () ∧
    (runQ exampleHeap [] [2, 3, 4]).lookup "F2" = some 2 ∧
    (runQ exampleHeap [] [2, 3, 4]).lookup "Baz" = some 4 := by decide +kernel

/-- C65, instance of the histories: what the first class stored stays, whatever is registered later. -/
example (post : List ℕ) : (runQ exampleHeap [] ([] ++ 2 :: post)).lookup "F1" = some 2 := by
  obtain ⟨ks, h1, h2⟩ := (C65_q_history exampleHeap [] [] 2 post).2 (by decide +kernel)
  have e : classKeys exampleHeap 2 = some ["Foo", "F1", "F2"] := by decide +kernel
  rw [e] at h1
  cases h1
  exact h2 "F1" (by simp)

/-- C65, instance: the second class has an alias of the first. -/
example : (registerQ exampleHeap 3 (runQ exampleHeap [] [2])).2 ≠ .ok () :=
  (C65_no_overwrite exampleHeap 3 (runQ exampleHeap [] [2]) ["Bar", "B1", "F2", "B2"] (by decide +kernel)
    (Or.inr ⟨"F2", by decide, by decide +kernel⟩)).1

/-- C65, instance: a Runge-Kutta class, in both registries. -/
example (t : ℕ → RKAttrs) (ht : t 4 = { A := [[0]], b := [1], c := [0] }) (post : List ℕ) :
    (runRK exampleHeap t ([], []) ([] ++ 4 :: post)).1.lookup "Baz" = some 4 ∧
    (runRK exampleHeap t ([], []) ([] ++ 4 :: post)).2.lookup "Baz" = some 4 := by
  have hq : registerQ exampleHeap 4 [] = ([("Baz", 4)], .ok ()) := by decide +kernel
  have hs : storeClass exampleHeap 4 [] = ([("Baz", 4)], .ok ()) := by decide +kernel
  have ho : getattr exampleHeap 4 "order" = some (.property 43) := by decide +kernel
  obtain ⟨ks, h1, h2⟩ := (C65_rk_history exampleHeap t [] [] [] 4 post).2.2 (by
    simp [runRK, registerRK, checkAndStore, npShape2, ht, hq, hs, ho])
  have e : classKeys exampleHeap 4 = some ["Baz"] := by decide +kernel
  rw [e] at h1
  cases h1
  exact h2 "Baz" (by simp)

/-- C66, instance: the refused class leaves nothing but its own keys. -/
example : ∃ ks, ks <+: ["Bar", "B1", "F2", "B2"] ∧ ∀ k, (registerQ exampleHeap 3 (runQ exampleHeap [] [2])).1.lookup k =
    if k ∈ ks then some 3 else (runQ exampleHeap [] [2]).lookup k := by
  obtain ⟨ks, h1, -, h2⟩ := C66_trace_bound exampleHeap 3 (runQ exampleHeap [] [2])
  have e : (exampleHeap 3).name :: (match getattr exampleHeap 3 "aliases" with | some (.strList l) => l | _ => []) =
    ["Bar", "B1", "F2", "B2"] := by decide +kernel
  rw [e] at h1
  exact ⟨ks, h1, h2⟩

/-- C66, finding: a registration that raises leaves the class in the registry, under its name and the
aliases before the one that is taken; a second attempt (with the alias corrected) fails on the name. -/
theorem C66_trace_fails : ∃ (h : Heap) (d : Dict) (c : ℕ),
    (registerQ h c d).2 = .error .assertionError ∧ d.lookup (h c).name = none ∧
    (registerQ h c d).1.lookup (h c).name = some c ∧ (registerQ h c d).1.lookup "B1" = some c ∧
    (registerQ h c d).1.lookup "B2" = none ∧
    (registerQ (setattr h c "aliases" (.strList ["B1"])) c (registerQ h c d).1).2 =
      .error .assertionError :=
  ⟨exampleHeap, runQ exampleHeap [] [2], 3, by decide +kernel⟩

/-- C66, finding: a Runge-Kutta class refused by `registerRK` because its `order` is a number instead of a
property is stored in `RK_SCHEMES` all the same, and not in `Q_GENERATORS`. -/
theorem C66_rk_fails : ∃ (h : Heap) (c : ℕ) (t : RKAttrs),
    (registerRK h c t [] []).2 = .error .assertionError ∧
    (registerRK h c t [] []).1.1.lookup (h c).name = some c ∧
    (registerRK h c t [] []).1.2 = [] := by
  let h : Heap := fun i => if i = 2 then genClass 2 "Foo" [("order", .other 0)] else baseClass i
  refine ⟨h, 2, { A := [[0]], b := [1], c := [0] }, ?_⟩
  have hq : registerQ h 2 [] = ([], .error .assertionError) := by decide +kernel
  have hs : storeClass h 2 [] = ([("Foo", 2)], .ok ()) := by decide +kernel
  have ho : getattr h 2 "order" = some (.other 0) := by decide +kernel
  have hr : registerRK h 2 { A := [[0]], b := [1], c := [0] } [] [] =
      (([("Foo", 2)], []), .error .assertionError) := by
    simp [registerRK, checkAndStore, npShape2, ho, hs, hq]
  rw [hr]
  exact ⟨rfl, by decide +kernel, rfl⟩

/-! ## C67 -/

theorem getClassesLoop_spec (h : Heap) (m : Option String) (acc d : Dict) (hacc : (acc.map Prod.snd).Nodup) :
    ((getClassesLoop h m acc d).map Prod.snd).Nodup ∧ acc <+: getClassesLoop h m acc d ∧
    (∀ c, c ∈ (getClassesLoop h m acc d).map Prod.snd ↔ c ∈ acc.map Prod.snd ∨
      (c ∈ d.map Prod.snd ∧ moduleCheck h m c = true)) ∧
    (∀ k c, (k, c) ∈ getClassesLoop h m acc d → (k, c) ∈ acc ∨
      (c ∉ acc.map Prod.snd ∧ d.find? (fun p => p.2 = c) = some (k, c))) := by
  induction d generalizing acc with
  | nil => exact ⟨hacc, List.prefix_rfl, by simp [getClassesLoop], fun k c hk => Or.inl hk⟩
  | cons p d ih =>
    obtain ⟨key, cls⟩ := p
    by_cases hc : cls ∉ acc.map Prod.snd ∧ moduleCheck h m cls = true
    · have e : getClassesLoop h m acc ((key, cls) :: d) = getClassesLoop h m (acc ++ [(key, cls)]) d := by
        rw [getClassesLoop, if_pos hc]
      have hacc' : ((acc ++ [(key, cls)]).map Prod.snd).Nodup := by
        rw [List.map_append, List.nodup_append]
        exact ⟨hacc, by simp, by
          intro a ha b hb
          simp at hb
          rintro rfl
          exact hc.1 (hb ▸ ha)⟩
      obtain ⟨h1, h2, h3, h4⟩ := ih _ hacc'
      rw [e]
      refine ⟨h1, (List.prefix_append _ _).trans h2, fun c => ?_, fun k c hk => ?_⟩
      · rw [h3]
        simp only [List.map_append, List.map_cons, List.map_nil, List.mem_append, List.mem_cons,
          List.not_mem_nil, or_false]
        constructor
        · rintro ((h | rfl) | h)
          · exact Or.inl h
          · exact Or.inr ⟨Or.inl rfl, hc.2⟩
          · exact Or.inr ⟨Or.inr h.1, h.2⟩
        · rintro (h | ⟨rfl | h, hm⟩)
          · exact Or.inl (Or.inl h)
          · exact Or.inl (Or.inr rfl)
          · exact Or.inr ⟨h, hm⟩
      · rcases h4 k c hk with h | ⟨h, hf⟩
        · rw [List.mem_append, List.mem_singleton] at h
          rcases h with h | h
          · exact Or.inl h
          · cases h
            refine Or.inr ⟨hc.1, ?_⟩
            simp
        · rw [List.map_append, List.mem_append] at h
          push Not at h
          have hne : cls ≠ c := fun hh => h.2 (by simp [hh])
          refine Or.inr ⟨h.1, ?_⟩
          rw [List.find?_cons_of_neg (by simpa using hne)]
          exact hf
    · have e : getClassesLoop h m acc ((key, cls) :: d) = getClassesLoop h m acc d := by
        rw [getClassesLoop, if_neg hc]
      obtain ⟨h1, h2, h3, h4⟩ := ih _ hacc
      rw [e]
      refine ⟨h1, h2, fun c => ?_, fun k c hk => ?_⟩
      · rw [h3]
        simp only [List.map_cons, List.mem_cons]
        constructor
        · rintro (h | h)
          · exact Or.inl h
          · exact Or.inr ⟨Or.inr h.1, h.2⟩
        · rintro (h | ⟨rfl | h, hm⟩)
          · exact Or.inl h
          · refine Or.inl ?_
            by_contra hn
            exact hc ⟨hn, hm⟩
          · exact Or.inr ⟨h, hm⟩
      · rcases h4 k c hk with hin | ⟨hout, hf⟩
        · exact Or.inl hin
        · refine Or.inr ⟨hout, ?_⟩
          have hne : cls ≠ c := by
            rintro rfl
            have hm : moduleCheck h m cls = true := by
              have : cls ∈ (getClassesLoop h m acc d).map Prod.snd := List.mem_map.mpr ⟨_, hk, rfl⟩
              rcases (h3 cls).mp this with h' | h'
              · exact absurd h' hout
              · exact h'.2
            exact hc ⟨hout, hm⟩
          rw [List.find?_cons_of_neg (by simpa using hne)]
          exact hf

/-- C67: `getClasses` gives every class of the dictionary (of the module, if one is given) exactly once,
under the first of its keys. -/
theorem C67_once (h : Heap) (d : Dict) (m : Option String) :
    ((getClasses h d m).map Prod.snd).Nodup ∧
    (∀ c, c ∈ (getClasses h d m).map Prod.snd ↔ c ∈ d.map Prod.snd ∧
      (∀ s, m = some s → ∃ t, (h c).module.toList = t ++ ("." ++ s).toList)) ∧
    (∀ k c, (k, c) ∈ getClasses h d m → d.find? (fun p => p.2 = c) = some (k, c)) := by
  obtain ⟨h1, -, h3, h4⟩ := getClassesLoop_spec h m [] d (by simp)
  refine ⟨h1, fun c => ?_, fun k c hk => ?_⟩
  · have := h3 c
    simp only [List.map_nil, List.not_mem_nil, false_or] at this
    rw [getClasses, this]
    refine and_congr_right fun _ => ?_
    unfold moduleCheck
    cases m with
    | none => simp
    | some s =>
      simp only [pyEndsWith, List.isSuffixOf_iff_suffix, Option.some.injEq]
      constructor
      · rintro ⟨t, ht⟩ s' rfl
        exact ⟨t, ht.symm⟩
      · intro hh
        obtain ⟨t, ht⟩ := hh s rfl
        exact ⟨t, ht.symm⟩
  · rcases h4 k c hk with h | h
    · simp at h
    · exact h.2

/-- Instance: the classes of the example, each once. -/
example : ((getClasses exampleHeap (runQ exampleHeap [] [2, 3, 4]) none).map Prod.snd).Nodup :=
  (C67_once exampleHeap (runQ exampleHeap [] [2, 3, 4]) none).1

/-- C67: in a registry that only `register` wrote, the key given for a class is its name. -/
theorem C67_by_name (h : Heap) (cs : List ℕ) (m : Option String) (k : String) (c : ℕ)
    (hk : (k, c) ∈ getClasses h (runQ h [] cs) m) : k = (h c).name := by
  have inv : ∀ (cs : List ℕ) (d : Dict), (∀ c k, d.find? (fun p => p.2 = c) = some (k, c) → k = (h c).name) →
      (∀ c, c ∈ d.map Prod.snd → d.lookup (h c).name ≠ none) →
      ∀ c k, (runQ h d cs).find? (fun p => p.2 = c) = some (k, c) → k = (h c).name := by
    intro cs
    induction cs with
    | nil => exact fun d hd _ => hd
    | cons a cs ih =>
      intro d hd hd2
      obtain ⟨ks, hpre, hks, hf⟩ := (registerQ_stores h a d).seg
      refine ih _ ?_ ?_
      · intro c k hck
        change (registerQ h a d).1.find? _ = _ at hck
        rw [hks, List.find?_append] at hck
        rcases hfd : d.find? (fun p => p.2 = c) with _ | ⟨k', c'⟩
        · rw [hfd, Option.none_or] at hck
          cases ks with
          | nil => simp at hck
          | cons k0 ks =>
            have hc : a = c := by
              have := List.mem_of_find?_eq_some hck
              simp only [List.mem_map, Prod.mk.injEq] at this
              obtain ⟨_, _, _, h'⟩ := this
              exact h'
            subst hc
            simp at hck
            rw [← hck]
            exact (List.cons_prefix_cons.mp hpre).1
        · rw [hfd] at hck
          simp only [Option.some_or, Option.some.injEq, Prod.mk.injEq] at hck
          obtain ⟨rfl, rfl⟩ := hck
          exact hd _ _ hfd
      · intro c hc
        change c ∈ (registerQ h a d).1.map _ at hc
        change (registerQ h a d).1.lookup _ ≠ _
        rw [hks, List.map_append, List.mem_append] at hc
        by_cases hcd : c ∈ d.map Prod.snd
        · obtain ⟨c', hc'⟩ := Option.ne_none_iff_exists'.mp (hd2 c hcd)
          rw [(registerQ_stores h a d).mono hc']
          simp
        · have hc := hc.resolve_left hcd
          simp only [List.mem_map] at hc
          obtain ⟨p, ⟨k', hk', rfl⟩, rfl⟩ := hc
          cases ks with
          | nil => simp at hk'
          | cons k0 ks =>
            obtain rfl := (List.cons_prefix_cons.mp hpre).1
            rw [hks, lookup_append, lookup_const]
            simp
  exact inv cs [] (by simp) (by simp) c k ((C67_once h _ m).2.2 k c hk)

/-- C67, instance. -/
example : getClasses exampleHeap (runQ exampleHeap [] [2, 3, 4]) = [("Foo", 2), ("Bar", 3), ("Baz", 4)] ∧
    getClasses exampleHeap (runQ exampleHeap [] [2, 3, 4]) (some "user") =
      [("Foo", 2), ("Bar", 3), ("Baz", 4)] ∧
    getClasses exampleHeap (runQ exampleHeap [] [2, 3, 4]) (some "butcher") = [] := by decide +kernel

/-! ## C68 -/

/-- `cls.name` is a property, and not the one of the class before `object` in the MRO, which has such an
attribute. -/
def OverridesProperty (h : Heap) (cls : ℕ) (name : String) : Prop :=
  ∃ i base p, getattr h cls name = some (.property i) ∧
    (h cls).mro.reverse[1]? = some base ∧ getattr h base name = some p ∧ p ≠ .property i

theorem mro_base (l : List ℕ) : (if 2 ≤ l.length then l[l.length - 2]? else none) = l.reverse[1]? := by
  split_ifs with hl
  · rw [List.getElem?_reverse (by omega)]
    congr 1
  · rw [List.getElem?_eq_none (by simpa using by omega)]

theorem checkOverriding_ok (h : Heap) (cls : ℕ) (name : String) :
    checkOverriding h cls name true = .ok () ↔ OverridesProperty h cls name := by
  unfold checkOverriding OverridesProperty
  simp only [mro_base]
  rcases hg : getattr h cls name with _ | a
  · simp
  rcases hb : (h cls).mro.reverse[1]? with _ | base
  · simp
  rcases hp : getattr h base name with _ | p
  · simp [hp]
  simp only [hp]
  by_cases hap : a = p
  · subst hap
    simp only [if_true]
    constructor
    · intro hh; cases hh
    · rintro ⟨i, b', p', h1, h2, h3, h4⟩
      cases h2
      rw [hp] at h3
      cases h3
      exact absurd (Option.some.inj h1) h4
  · rw [if_neg hap]
    simp only [if_true]
    cases a with
    | property i => exact ⟨fun _ => ⟨i, base, p, rfl, rfl, hp, fun hh => hap hh.symm⟩, fun _ => rfl⟩
    | _ =>
      constructor
      · intro hh; cases hh
      · rintro ⟨i, b', p', h1, -⟩
        cases h1

/-- `cls.name` differs from the attribute of the class before `object` in the MRO. -/
theorem checkOverriding_method_ok (h : Heap) (cls : ℕ) (name : String) :
    checkOverriding h cls name = .ok () ↔ ∃ a base p, getattr h cls name = some a ∧
      (h cls).mro.reverse[1]? = some base ∧ getattr h base name = some p ∧ a ≠ p := by
  unfold checkOverriding
  simp only [mro_base]
  rcases hg : getattr h cls name with _ | a
  · simp
  rcases hb : (h cls).mro.reverse[1]? with _ | base
  · simp
  rcases hp : getattr h base name with _ | p
  · simp [hp]
  by_cases hap : a = p
  · subst hap
    simp [hp]
  · simp [hap, hp]

theorem checkQGenerator_ok (h : Heap) (cls : ℕ) :
    checkQGenerator h cls = .ok () ↔
      (∀ name ∈ ["nodes", "Q", "weights", "order"], OverridesProperty h cls name) ∧
      getInstance h cls = .ok () := by
  have hlast : (match (h cls).call with
      | .ok () => .ok ()
      | .error .typeError =>
        match getattr h cls "DEFAULT_PARAMS" with
        | none => .error .attributeError
        | some _ =>
          match (h cls).callDefault with
          | .ok () => .ok ()
          | .error _ => .error .typeError
      | .error e => .error e : PyResult Unit) = .ok () ↔ getInstance h cls = .ok () := by
    unfold getInstance
    rcases (h cls).call with e | ⟨⟨⟩⟩
    · cases e <;> simp
      rcases getattr h cls "DEFAULT_PARAMS" with _ | _
      · simp
      · rcases (h cls).callDefault with e | ⟨⟨⟩⟩ <;> simp
    · simp
  rw [← hlast]
  simp only [List.mem_cons, List.not_mem_nil, or_false, forall_eq_or_imp, forall_eq, ← checkOverriding_ok]
  unfold checkQGenerator
  simp only [bind, Except.bind]
  rcases checkOverriding h cls "nodes" true with _ | ⟨⟨⟩⟩
  · simp
  rcases checkOverriding h cls "Q" true with _ | ⟨⟨⟩⟩
  · simp
  rcases checkOverriding h cls "weights" true with _ | ⟨⟨⟩⟩
  · simp
  rcases checkOverriding h cls "order" true with _ | ⟨⟨⟩⟩
  · simp
  simp only [true_and]
  rfl

/-- C68: `register` accepts a generator class exactly when its four properties are properties of its own
(or of a class between it and the base), an instance can be made without arguments or with
`DEFAULT_PARAMS`, and its name and aliases are new and different. -/
theorem C68_q (h : Heap) (cls : ℕ) (d : Dict) :
    (registerQ h cls d).2 = .ok () ↔
      (∀ name ∈ ["nodes", "Q", "weights", "order"], OverridesProperty h cls name) ∧
      getInstance h cls = .ok () ∧ ∃ ks, classKeys h cls = some ks ∧ Fresh d ks := by
  rw [← and_assoc, ← checkQGenerator_ok, ← storeClass_ok_iff]
  unfold registerQ
  rcases checkQGenerator h cls with _ | ⟨⟨⟩⟩ <;> simp

/-- Instance: the first class of the example overrides the four properties. -/
example : ∀ name ∈ ["nodes", "Q", "weights", "order"], OverridesProperty exampleHeap 2 name :=
  ((C68_q exampleHeap 2 []).1 (by decide +kernel)).1

/-- C68: so `getInstance` never raises for a registered class. -/
theorem C68_getInstance (h : Heap) (cs : List ℕ) (k : String) (c : ℕ)
    (hk : (runQ h [] cs).lookup k = some c) : c ∈ cs ∧ getInstance h c = .ok () := by
  have inv : ∀ (cs : List ℕ) (d : Dict), (runQ h d cs).lookup k = some c →
      d.lookup k = some c ∨ (c ∈ cs ∧ getInstance h c = .ok ()) := by
    intro cs
    induction cs with
    | nil => exact fun d hd => Or.inl hd
    | cons a cs ih =>
      intro d hd
      rcases ih _ hd with h1 | h1
      · obtain ⟨ks, -, hks, hf⟩ := (registerQ_stores h a d).seg
        rcases hok : checkQGenerator h a with e | ⟨⟨⟩⟩
        · have : registerQ h a d = (d, .error e) := by simp [registerQ, hok]
          simp only [this] at h1
          exact Or.inl h1
        · simp only at h1
          rw [hks, lookup_append, lookup_const] at h1
          rcases hdk : d.lookup k with _ | c'
          · rw [hdk, Option.none_or] at h1
            split_ifs at h1 with hmem
            cases h1
            exact Or.inr ⟨by simp, ((checkQGenerator_ok h c).mp hok).2⟩
          · rw [hdk] at h1
            exact Or.inl (by simpa using h1)
      · exact Or.inr ⟨by simp [h1.1], h1.2⟩
  rcases inv cs [] hk with h1 | h1
  · simp at h1
  · exact h1

/-- Instance: what is found under an alias can be instantiated. -/
example : getInstance exampleHeap 2 = .ok () :=
  (C68_getInstance exampleHeap [2, 3, 4] "F2" 2 (by decide +kernel)).2

/-- C68: `register` of a QDelta class: the constructor has `**kwargs`, `computeQDelta` is overridden by a
function with a positional parameter `k`, and the keys are new.  The class becomes `k`-dependent when
`k` has no default `None`, and keeps what it inherits otherwise. -/
theorem C68_qdelta (h : Heap) (cls : ℕ) (d : Dict) :
    ((registerQDelta h cls d).2.2 = .ok () ↔
      (∃ i ps p, getattr h cls "__init__" = some (.function i ps) ∧
        ps.find? (fun p => p.name = "kwargs") = some p ∧ p.varKeyword = true) ∧
      (∃ i ps p base a, getattr h cls "computeQDelta" = some (.function i ps) ∧
        ps.find? (fun p => p.name = "k") = some p ∧ p.positionalOrKeyword = true ∧
        (h cls).mro.reverse[1]? = some base ∧ getattr h base "computeQDelta" = some a ∧
        a ≠ .function i ps) ∧
      ∃ ks, classKeys h cls = some ks ∧ Fresh d ks) ∧
    ((registerQDelta h cls d).2.2 = .ok () → (h cls).mro.head? = some cls →
      ∀ i ps p, getattr h cls "computeQDelta" = some (.function i ps) →
        ps.find? (fun p => p.name = "k") = some p →
        isKDependent (registerQDelta h cls d).1 cls = (!p.defaultNone || isKDependent h cls)) := by
  have hgen : checkGenericConstr h cls = .ok () ↔ ∃ i ps p, getattr h cls "__init__" = some (.function i ps) ∧
      ps.find? (fun p => p.name = "kwargs") = some p ∧ p.varKeyword = true := by
    unfold checkGenericConstr
    rcases hi : getattr h cls "__init__" with _ | a
    · simp
    cases a with
    | function i ps =>
      simp only [Option.some.injEq, PyAttr.function.injEq]
      rcases hf : ps.find? (fun p => p.name = "kwargs") with _ | p
      · simp only [hf, reduceCtorEq, false_iff, not_exists, not_and]
        rintro i' ps' p' ⟨-, rfl⟩ h2
        rw [hf] at h2
        cases h2
      · simp only [hf]
        constructor
        · intro hh
          split_ifs at hh with hv
          exact ⟨i, ps, p, ⟨rfl, rfl⟩, hf, hv⟩
        · rintro ⟨i', ps', p', ⟨-, rfl⟩, h2, h3⟩
          rw [hf] at h2
          cases h2
          rw [if_pos h3]
    | _ => simp
  have hne : ∀ (h' : Heap), SameKeys h h' → ((storeClass h' cls d).2 = .ok () ↔
      ∃ ks, classKeys h cls = some ks ∧ Fresh d ks) := fun h' hs => by
    rw [storeClass_ok_iff, hs.classKeys]
  unfold registerQDelta
  rcases hg : checkGenericConstr h cls with e | ⟨⟨⟩⟩
  · rw [hg] at hgen
    simp only [reduceCtorEq, false_iff] at hgen
    simp only [reduceCtorEq, false_iff, false_imp_iff, and_true]
    exact fun hh => hgen hh.1
  rw [hg] at hgen
  simp only [true_iff] at hgen
  obtain ⟨i0, ps0, p0, hi0, hk0, hv0⟩ := hgen
  have hmeth := checkOverriding_method_ok h cls "computeQDelta"
  rcases ho : checkOverriding h cls "computeQDelta" with e | ⟨⟨⟩⟩
  · rw [ho] at hmeth
    simp only [reduceCtorEq, false_iff] at hmeth
    simp only [reduceCtorEq, false_iff, false_imp_iff, and_true]
    rintro ⟨-, ⟨i, ps, p, base, a, h1, -, -, h4, h5, h6⟩, -⟩
    exact hmeth ⟨_, base, a, h1, h4, h5, fun hh => h6 hh.symm⟩
  rw [ho] at hmeth
  simp only [true_iff] at hmeth
  obtain ⟨a, base, b, ha, hb, hab, hne'⟩ := hmeth
  simp only [ha]
  cases a with
  | function i ps =>
    simp only
    rcases hf : ps.find? (fun p => p.name = "k") with _ | p
    · simp only [hf, reduceCtorEq, false_iff, false_imp_iff, and_true]
      rintro ⟨-, ⟨i', ps', p', _, _, h1, h2, -⟩, -⟩
      cases h1
      rw [hf] at h2
      cases h2
    simp only [hf]
    by_cases hp : p.positionalOrKeyword = true
    swap
    · rw [if_neg hp]
      simp only [reduceCtorEq, false_iff, false_imp_iff, and_true]
      rintro ⟨-, ⟨i', ps', p', _, _, h1, h2, h3, -⟩, -⟩
      cases h1
      rw [hf] at h2
      cases h2
      exact hp h3
    rw [if_pos hp]
    have hs : SameKeys h (if p.defaultNone = true then h else setattr h cls "_K_DEPENDENT" (.bool true)) := by
      split
      · exact .refl h
      · exact .set h cls (Or.inr rfl) _
    have hinit : getattr (if p.defaultNone = true then h else setattr h cls "_K_DEPENDENT" (.bool true)) cls
        "__init__" = some (.function i0 ps0) := by
      split
      · exact hi0
      · rw [getattr_setattr_ne _ _ _ (by decide)]
        exact hi0
    rw [hinit]
    simp only
    refine ⟨?_, ?_⟩
    · rw [hne _ (hs.trans (.set _ cls (Or.inl rfl) _))]
      constructor
      · exact fun hh => ⟨⟨i0, ps0, p0, hi0, hk0, hv0⟩, ⟨i, ps, p, base, b, rfl, hf, hp, hb, hab,
          fun hh => hne' hh.symm⟩, hh⟩
      · exact fun hh => hh.2.2
    · intro _ hmro i' ps' p' h1 h2
      cases h1
      rw [hf] at h2
      cases h2
      unfold isKDependent
      rw [getattr_setattr_ne _ _ _ (by decide)]
      by_cases hd : p.defaultNone = true
      · simp [hd]
      · simp only [hd]
        have hset : getattr (setattr h cls "_K_DEPENDENT" (.bool true)) cls "_K_DEPENDENT" =
            some (.bool true) := by
          unfold getattr
          rw [(setattr_name h cls cls _ _).2.1]
          rcases hm : (h cls).mro with _ | ⟨x, xs⟩
          · rw [hm] at hmro
            cases hmro
          · rw [hm] at hmro
            cases hmro
            simp [setattr]
        simp [hset]
  | _ =>
    simp only [reduceCtorEq, false_iff, false_imp_iff, and_true]
    rintro ⟨-, ⟨i', ps', p', _, _, h1, -⟩, -⟩
    cases h1

/-- C68: `registerRK` accepts a class exactly when its arrays have consistent shapes, `order` is a
property of its own class chain, an instance can be made and the keys are new in both registries.  Nothing
is required of the embedded weights. -/
theorem C68_rk (h : Heap) (cls : ℕ) (t : RKAttrs) (rk q : Dict) (hb : t.c ≠ []) :
    (registerRK h cls t rk q).2 = .ok () ↔
      t.b.length = t.c.length ∧ t.A.length = t.c.length ∧ (∀ r ∈ t.A, r.length = t.c.length) ∧
      (∀ name ∈ ["nodes", "Q", "weights", "order"], OverridesProperty h cls name) ∧
      getInstance h cls = .ok () ∧ ∃ ks, classKeys h cls = some ks ∧ Fresh rk ks ∧ Fresh q ks := by
  have hA : (∃ s, npShape2 t.A = .ok s ∧ s = [t.c.length, t.c.length]) ↔
      t.A.length = t.c.length ∧ (∀ r ∈ t.A, r.length = t.c.length) := by
    have hpos : 0 < t.c.length := List.length_pos_iff.mpr hb
    unfold npShape2
    rcases t.A with _ | ⟨r, rest⟩
    · simp
      exact fun hh => hb (List.length_eq_zero_iff.mp hh.symm)
    · simp only [List.all_eq_true, decide_eq_true_eq, List.length_cons, List.mem_cons, forall_eq_or_imp]
      constructor
      · rintro ⟨s, h1, rfl⟩
        split_ifs at h1 with hall
        simp only [Except.ok.injEq, List.cons.injEq, and_true] at h1
        exact ⟨h1.1, h1.2, fun x hx => (hall x hx).trans h1.2⟩
      · rintro ⟨h1, h2, h3⟩
        exact ⟨_, if_pos fun x hx => (h3 x hx).trans h2.symm, by rw [h1, h2]⟩
  have hq := C68_q h cls q
  constructor
  · intro hok
    unfold registerRK at hok
    rcases hc : checkAndStore h cls t rk with ⟨rk', e | ⟨⟨⟩⟩⟩
    · rw [hc] at hok; cases hok
    rw [hc] at hok
    obtain ⟨h1, h2, ks, h3, h4⟩ := hq.mp hok
    have hs := (checkAndStore_stores h cls t rk)
    rw [hc] at hs
    obtain ⟨ks', hks', -, hf⟩ := hs.all rfl
    rw [h3] at hks'
    cases hks'
    unfold checkAndStore at hc
    rcases hsh : npShape2 t.A with e | s
    · rw [hsh] at hc; cases hc
    rw [hsh] at hc
    simp only at hc
    split_ifs at hc with hb1 hb2
    · cases hc
    · cases hc
    push Not at hb1 hb2
    obtain ⟨hA1, hA2⟩ := hA.mp ⟨s, hsh, hb2⟩
    exact ⟨hb1, hA1, hA2, h1, h2, ks, h3, hf, h4⟩
  · rintro ⟨hb1, hA1, hA2, h1, h2, ks, h3, h4, h5⟩
    obtain ⟨s, hsh, hs⟩ := hA.mpr ⟨hA1, hA2⟩
    obtain ⟨i, base, p, ho, -⟩ := h1 "order" (by simp)
    have hc : checkAndStore h cls t rk = storeClass h cls rk := by
      unfold checkAndStore
      rw [hsh]
      simp only [hb1, hs, ho, ne_eq, not_true_eq_false, if_false]
    unfold registerRK
    rw [hc]
    have hst := (storeClass_ok_iff h cls rk).mpr ⟨ks, h3, h4⟩
    rcases hsc : storeClass h cls rk with ⟨rk', e | ⟨⟨⟩⟩⟩
    · rw [hsc] at hst; cases hst
    · exact hq.mpr ⟨h1, h2, ks, h3, h5⟩

/-- Instance: a scheme with a matrix of the wrong size is refused. -/
example : (registerRK exampleHeap 4 { A := [[0, 0]], b := [1], c := [0] } [] []).2 ≠ .ok () := fun h => by
  obtain ⟨-, -, h, -⟩ := (C68_rk exampleHeap 4 { A := [[0, 0]], b := [1], c := [0] } [] [] (by simp)).1 h
  simpa using h _ (List.mem_singleton.mpr rfl)

/-- C68, finding: `b2` of any size passes. -/
theorem C68_b2_fails : ∃ (h : Heap) (cls : ℕ) (t : RKAttrs), (registerRK h cls t [] []).2 = .ok () ∧
    ∃ b2, t.b2 = some b2 ∧ b2.length ≠ t.b.length := by
  refine ⟨exampleHeap, 4, { A := [[0]], b := [1], c := [0], b2 := some [1, 2, 3] }, ?_, _, rfl, by simp⟩
  have hq : registerQ exampleHeap 4 [] = ([("Baz", 4)], .ok ()) := by decide +kernel
  have hs : storeClass exampleHeap 4 [] = ([("Baz", 4)], .ok ()) := by decide +kernel
  have ho : getattr exampleHeap 4 "order" = some (.property 43) := by decide +kernel
  simp [registerRK, checkAndStore, npShape2, ho, hs, hq]

/-- C68, finding: a class with a mixin listed after the generator base is refused with an `AttributeError`,
because the class before `object` is then the mixin. -/
theorem C68_mixin_fails : ∃ (h : Heap) (cls : ℕ),
    (∀ name ∈ ["nodes", "Q", "weights", "order"], ∃ i, (h cls).attrs.lookup name = some (.property i)) ∧
    (1 ∈ (h cls).mro) ∧ getInstance h cls = .ok () ∧
    registerQ h cls [] = ([], .error .attributeError) := by
  refine ⟨fun i => if i = 2 then { genClass 2 "Foo" [] with mro := [2, 1, 3, 0] }
    else if i = 3 then { name := "Mixin", module := "user", mro := [3, 0], attrs := [] }
    else baseClass i, 2, ?_, by decide +kernel, by decide +kernel, by decide +kernel⟩
  intro name hn
  simp only [List.mem_cons, List.not_mem_nil, or_false] at hn
  rcases hn with rfl | rfl | rfl | rfl
  · exact ⟨20, by decide +kernel⟩
  · exact ⟨21, by decide +kernel⟩
  · exact ⟨22, by decide +kernel⟩
  · exact ⟨23, by decide +kernel⟩

/-- C68, instance: a `k`-dependent class and a subclass of it whose `k` has the default `None`. -/
def exampleQD : Heap := fun i =>
  let self : PyParam := ⟨"self", false, true, false⟩
  let kwargs : PyParam := ⟨"kwargs", true, false, false⟩
  if i = 2 then { name := "Foo", module := "m", mro := [2, 1, 0], attrs := [("aliases", .strList ["F"]), ("computeQDelta", .function 5 [self, ⟨"k", false, true, false⟩])] }
  else if i = 3 then { name := "Bar", module := "m", mro := [3, 2, 1, 0], attrs := [("aliases", .strList []), ("computeQDelta", .function 6 [self, ⟨"k", false, true, true⟩])] }
  else if i = 4 then { name := "Sub", module := "m", mro := [4, 2, 1, 0], attrs := [] }
  else if i = 1 then { name := "QDeltaGenerator", module := "m", mro := [1, 0], attrs := [("_K_DEPENDENT", .bool false), ("__init__", .function 1 [self, kwargs]), ("computeQDelta", .function 2 [self, ⟨"k", false, true, true⟩])] }
  else { name := "object", module := "builtins", mro := [0], attrs := [] }

example : (registerQDelta exampleQD 2 []).2.2 = .ok () ∧
    isKDependent (registerQDelta exampleQD 2 []).1 2 = true ∧
    (registerQDelta exampleQD 3 []).2.2 = .ok () ∧
    isKDependent (registerQDelta exampleQD 3 []).1 3 = false ∧
    isKDependent (runQDelta (exampleQD, []) [2, 3]).1 3 = true := by decide +kernel

/-- C68, instance: the first class of this example satisfies the conditions. -/
example : ∃ i ps p, getattr exampleQD 2 "__init__" = some (.function i ps) ∧
    ps.find? (fun p => p.name = "kwargs") = some p ∧ p.varKeyword = true :=
  ((C68_qdelta exampleQD 2 []).1.1 (by decide +kernel)).1

/-- C65, instance for `register` of the QDelta generators. -/
example (post : List ℕ) : ∃ ks, classKeys exampleQD 2 = some ks ∧
    ∀ k ∈ ks, (runQDelta (exampleQD, []) ([] ++ 2 :: post)).2.lookup k = some 2 :=
  (C65_qdelta_history exampleQD [] [] 2 post).2 (by decide +kernel)

/-- C66, finding: a subclass that inherits the list `aliases` of a registered class is refused, and its name
stays in the registry. -/
theorem C66_inherited_alias_fails : ∃ (h : Heap) (c c' : ℕ), c ∈ (h c').mro ∧
    (registerQDelta h c []).2.2 = .ok () ∧
    (registerQDelta (runQDelta (h, []) [c]).1 c' (runQDelta (h, []) [c]).2).2.2 = .error .assertionError ∧
    (runQDelta (h, []) [c, c']).2.lookup (h c').name = some c' :=
  ⟨exampleQD, 2, 4, by decide +kernel⟩

/-- C68, instance: what `C68_q` asks of `Foo`. -/
example : checkQGenerator exampleHeap 2 = .ok () ∧ classKeys exampleHeap 2 = some ["Foo", "F1", "F2"] ∧
    getInstance exampleHeap 2 = .ok () := by decide +kernel

/-! ## C65: the registries of the package -/

/-- C65: classes that pass the checks and have different keys can be registered in any order; every
registration succeeds and the registry is the map from keys to classes. -/
theorem C65_any_order (h : Heap) (cs : List ℕ) (K : ℕ → List String)
    (hok : ∀ c ∈ cs, checkQGenerator h c = .ok () ∧ classKeys h c = some (K c))
    (hnd : (cs.flatMap K).Nodup) :
    (∀ pre c post, cs = pre ++ c :: post → (registerQ h c (runQ h [] pre)).2 = .ok ()) ∧
    ∀ k c, (runQ h [] cs).lookup k = some c ↔ c ∈ cs ∧ k ∈ K c := by
  have step : ∀ (cs : List ℕ) (hok : ∀ c ∈ cs, checkQGenerator h c = .ok () ∧ classKeys h c = some (K c))
      (hnd : (cs.flatMap K).Nodup),
      runQ h [] cs = cs.flatMap (fun c => (K c).map fun k => (k, c)) := by
    intro cs
    induction cs using List.reverseRecOn with
    | nil => exact fun _ _ => rfl
    | append_singleton cs a ih =>
      intro hok hnd
      have e : runQ h [] (cs ++ [a]) = (registerQ h a (runQ h [] cs)).1 := by simp [runQ, List.foldl_append]
      rw [List.flatMap_append, List.nodup_append] at hnd
      have ih := ih (fun c hc => hok c (by simp [hc])) hnd.1
      have hfresh : Fresh (runQ h [] cs) (K a) := by
        refine ⟨by simpa using hnd.2.1, fun k hk => ?_⟩
        rw [ih, List.lookup_eq_none_iff]
        rintro ⟨k', c'⟩ hmem
        simp only [List.mem_flatMap, List.mem_map, Prod.mk.injEq] at hmem
        obtain ⟨c, hc, k'', hk'', rfl, rfl⟩ := hmem
        have := hnd.2.2 k'' (List.mem_flatMap.mpr ⟨c, hc, hk''⟩) k (by simpa using hk)
        simpa using fun hh => this hh.symm
      have hchk := hok a (by simp)
      have hr : registerQ h a (runQ h [] cs) = storeClass h a (runQ h [] cs) := by
        simp [registerQ, hchk.1]
      have hst := (storeClass_ok_iff h a (runQ h [] cs)).mpr ⟨K a, hchk.2, hfresh⟩
      obtain ⟨ks, hks, h1, -⟩ := (storeClass_stores h a (runQ h [] cs)).all hst
      rw [hchk.2] at hks
      cases hks
      rw [e, hr, h1, ih]
      simp
  refine ⟨?_, ?_⟩
  · rintro pre c post rfl
    rw [List.flatMap_append, List.nodup_append, List.flatMap_cons, List.nodup_append] at hnd
    have hchk := hok c (by simp)
    rw [C68_q, ← and_assoc, ← checkQGenerator_ok]
    refine ⟨hchk.1, K c, hchk.2, hnd.2.1.1, fun k hk => ?_⟩
    rw [step pre (fun c hc => hok c (by simp [hc])) hnd.1, List.lookup_eq_none_iff]
    rintro ⟨k', c'⟩ hmem
    simp only [List.mem_flatMap, List.mem_map, Prod.mk.injEq] at hmem
    obtain ⟨c, hc, k'', hk'', rfl, rfl⟩ := hmem
    have := hnd.2.2 k'' (List.mem_flatMap.mpr ⟨c, hc, hk''⟩) k (by simp [hk])
    simpa using fun hh => this hh.symm
  · intro k c
    rw [step cs hok hnd]
    clear hok step
    induction cs with
    | nil => simp
    | cons a cs ih =>
      rw [List.flatMap_cons, List.nodup_append] at hnd
      rw [List.flatMap_cons, lookup_append, lookup_const]
      by_cases hk : k ∈ K a
      · rw [if_pos hk]
        simp only [Option.some_or, Option.some.injEq, List.mem_cons]
        constructor
        · rintro rfl
          exact ⟨Or.inl rfl, hk⟩
        · rintro ⟨rfl | hc, hk'⟩
          · rfl
          · exact absurd rfl (hnd.2.2 k hk k (List.mem_flatMap.mpr ⟨c, hc, hk'⟩))
      · rw [if_neg hk, Option.none_or, ih hnd.2.1]
        simp only [List.mem_cons]
        constructor
        · exact fun hh => ⟨Or.inr hh.1, hh.2⟩
        · rintro ⟨rfl | hc, hk'⟩
          · exact absurd hk' hk
          · exact ⟨hc, hk'⟩

/-- Instance: the first and the third class of the example, the third one first. -/
example : (runQ exampleHeap [] [4, 2]).lookup "F2" = some 2 :=
  ((C65_any_order exampleHeap [4, 2] (fun c => if c = 2 then ["Foo", "F1", "F2"] else ["Baz"])
    (by decide +kernel) (by decide +kernel)).2 "F2" 2).2 (by decide)

/-- C65: the names and aliases of the QDelta classes of the package are different. -/
theorem C65_qdelta_keys_nodup (ext : ExternalNum) :
    ((qDeltaClasses ext).flatMap fun c => c.name :: c.aliases).Nodup := by
  have e : ((qDeltaClasses ext).flatMap fun c => c.name :: c.aliases) = ["PIC", "Picard", "Exact", "EXACT", "LU", "LU2", "QPar", "Qpar", "Qdiag", "GS", "GaussSeidel", "LDU", "MIN", "MIN-Speck", "MIN3", "Magic_Numbers", "MIN_VDHS", "VDHS", "MIN_SR_NS", "MIN-SR-NS", "MIN_GT", "MIN_SR_S", "MIN-SR-S", "MIN_SR_FLEX", "MIN-SR-FLEX", "Jumper", "JUMPER", "FB", "FlexJumper", "FLEX-JUMPER", "FB2", "DNODES", "DNODES-1", "DNODES2", "DNODES-2", "DNODES3", "DNODES-3", "DNODES4", "DNODES-4", "DNODES5", "DNODES-5", "BE", "IE", "FE", "EE", "TRAP", "CN", "BEPAR", "IEpar", "TRAPAR", "SOE", "LeapFrog", "LF"] := rfl
  rw [e]
  decide +kernel

/-- C65: so every name and alias of the package gives its own class. -/
theorem C65_qdelta_lookup (ext : ExternalNum) (c : QDClass) (hc : c ∈ qDeltaClasses ext) (k : String)
    (hk : k = c.name ∨ k ∈ c.aliases) : QDELTA_GENERATORS ext k = some c := by
  have key : ∀ l : List QDClass, (l.flatMap fun c => c.name :: c.aliases).Nodup → c ∈ l →
      l.find? (fun c => k = c.name ∨ k ∈ c.aliases) = some c := by
    intro l
    induction l with
    | nil => simp
    | cons a l ih =>
      intro hnd hmem
      rw [List.flatMap_cons, List.nodup_append] at hnd
      by_cases ha : k = a.name ∨ k ∈ a.aliases
      · rw [List.find?_cons_of_pos (by simpa using ha)]
        rcases List.mem_cons.mp hmem with rfl | hm
        · rfl
        · exact absurd rfl (hnd.2.2 k (by simpa using ha) k (List.mem_flatMap.mpr ⟨c, hm, by simpa using hk⟩))
      · rw [List.find?_cons_of_neg (by simpa using ha)]
        rcases List.mem_cons.mp hmem with rfl | hm
        · exact absurd hk ha
        · exact ih hnd.2.1 hm
  exact key _ (C65_qdelta_keys_nodup ext) hc

/-- Instance: an alias of backward Euler. -/
example (ext : ExternalNum) : ∃ c ∈ qDeltaClasses ext, c.name = "BE" ∧ QDELTA_GENERATORS ext "IE" = some c :=
  ⟨classTime "BE" ["IE"] (fun g => .ok g.computeBE) fun _ => 0, by simp [qDeltaClasses], rfl,
    C65_qdelta_lookup ext _ (by simp [qDeltaClasses]) "IE" (Or.inr (by simp [classTime]))⟩

/-- C65: the names and aliases of the Runge-Kutta classes of the package, and `Collocation` with its alias
(`collocation.py` 38), are different. -/
theorem C65_q_keys_nodup :
    ("Collocation" :: "coll" :: Tables.rkSchemes.flatMap fun T => T.name :: T.aliases).Nodup := by
  decide +kernel

end QMat.Registry
