import Verif.Props.Threads

/-!
# C111: cached arrays that stay, and registrations that are refused
-/

namespace QMat

open Matrix

section cache

variable {g : QDeltaGen}

/-- The attribute is what the class needs. -/
def AttrOk (g : QDeltaGen) (s : TStore g.size) : Prop :=
  match s.attr with
  | .unset => True
  | .array _ => g.kDependent = false
  | .dict d => g.kDependent = true ∧ d < s.dicts.length

theorem AttrOk.next {s : TStore g.size} (hs : AttrOk g s) (c : TCall) (got : List ℕ) (k : Option ℤ) (todo : List (Option ℤ)) (pc : Pc) :
    AttrOk g (g.tnext s c got k todo pc).1 := by
  have hal : ∀ A, AttrOk g (s.alloc A) := fun A => hs
  cases pc with
  | load => simp only [QDeltaGen.tnext]; split <;> first | exact hs | (split_ifs <;> exact hs)
  | index d => simp only [QDeltaGen.tnext]; split <;> exact hs
  | compute m =>
    simp only [QDeltaGen.tnext]
    split_ifs
    · split <;> exact hs
    · split
      · exact hs
      · exact hal _
  | memoCompute m =>
    simp only [QDeltaGen.tnext]
    split
    · exact hs
    · exact hal _
  | memoStore m a => exact hs
  | memoLoad m => simp only [QDeltaGen.tnext]; split <;> exact hs
  | store m a =>
    cases m with
    | «attribute» =>
      simp only [QDeltaGen.tnext]
      split_ifs with hk
      · exact ⟨hk, by simp⟩
      · change g.kDependent = false
        simpa using hk
    | key => simp only [QDeltaGen.tnext]; split <;> exact hs
    | other => exact hs
  | insert d a =>
    simp only [QDeltaGen.tnext, AttrOk, List.length_modify] at hs ⊢
    exact hs
  | ret a =>
    simp only [QDeltaGen.tnext]
    split
    · exact hal _
    · exact hs
    · exact hal _
    · split <;> exact hs

theorem AttrOk.act {C : TConfig g.size} (hs : AttrOk g C.store) (a : TAct g.size) : AttrOk g (g.tact C a).store := by
  cases a with
  | begin t c => simp only [QDeltaGen.tact]; split <;> exact hs
  | interrupt t => exact hs
  | write a A => simp only [QDeltaGen.tact]; split_ifs <;> exact hs
  | advance t =>
    simp only [QDeltaGen.tact]
    split
    · exact hs
    · rename_i c got k todo pc _
      have := hs.next c got k todo pc
      split <;> (rename_i he; rw [he] at this; exact this)

theorem AttrOk.schedule (h : List (TAct g.size)) : AttrOk g (g.schedule h).store := by
  have : ∀ (h : List (TAct g.size)) (C : TConfig g.size), AttrOk g C.store → AttrOk g (h.foldl g.tact C).store := by
    intro h
    induction h with
    | nil => exact fun C hC => hC
    | cons a h ih => exact fun C hC => ih _ (hC.act a)
  exact this h _ trivial

/-- The array at `a` is the one that is kept for sweep `k`. -/
def Kept (g : QDeltaGen) (k : Option ℤ) (a : ℕ) (s : TStore g.size) : Prop :=
  g.kDependent = false ∧ s.attr = .array a ∨
  g.kDependent = true ∧ ∃ d, s.attr = .dict d ∧ d < s.dicts.length ∧ (s.dicts.getD d []).lookup k = some a

/-- A thread that cannot replace it. -/
def PcKept (g : QDeltaGen) (k : Option ℤ) (a : ℕ) (s : TStore g.size) (k' : Option ℤ) : Pc → Prop
  | .load => True
  | .index d => s.attr = .dict d
  | .compute m => m = .key ∧ k' ≠ k ∧ g.kDependent = true
  | .memoCompute m => m = .key ∧ k' ≠ k ∧ g.kDependent = true
  | .memoStore m _ => m = .key ∧ k' ≠ k ∧ g.kDependent = true
  | .memoLoad m => m = .key ∧ k' ≠ k ∧ g.kDependent = true
  | .store m _ => m = .key ∧ k' ≠ k ∧ g.kDependent = true
  | .insert _ _ => k' ≠ k ∧ g.kDependent = true
  | .ret b => k' = k ∨ g.kDependent = false → b = a

/-- The call works on its sweep. -/
def CallOk (c : TCall) (k' : Option ℤ) : Prop := ∀ k0 b, c = .getQDelta k0 b → k' = k0

theorem lookup_modify {ds : List (List (Option ℤ × ℕ))} {d d' : ℕ} {k k' : Option ℤ} (b : ℕ) (hk : k' ≠ k) :
    ((ds.modify d' ((k', b) :: ·)).getD d []).lookup k = (ds.getD d []).lookup k := by
  rw [List.getD_eq_getElem?_getD, List.getD_eq_getElem?_getD, List.getElem?_modify]
  cases h : ds[d]? with
  | none => simp
  | some es =>
    have hkk : (k == k') = false := by simpa using fun h => hk h.symm
    split_ifs
    · simp [List.lookup_cons, hkk]
    · simp

/-- One step of any thread keeps the array. -/
theorem Kept.next {k : Option ℤ} {a : ℕ} {s : TStore g.size} (hs : Kept g k a s) (c : TCall) (got : List ℕ) (k' : Option ℤ)
    (todo : List (Option ℤ)) (pc : Pc) (hp : PcKept g k a s k' pc) (hc : CallOk c k') :
    Kept g k a (g.tnext s c got k' todo pc).1 ∧ (g.tnext s c got k' todo pc).1.attr = s.attr ∧
    match (g.tnext s c got k' todo pc).2 with
    | .cont _ k2 _ pc2 => PcKept g k a (g.tnext s c got k' todo pc).1 k2 pc2 ∧ CallOk c k2
    | .raise _ => c ≠ .getQDelta k false
    | .array b => c = .getQDelta k false → b = a
    | .stack _ => c ≠ .getQDelta k false := by
  have hal : ∀ A, Kept g k a (s.alloc A) := fun A => hs
  have hne : k' ≠ k → c ≠ .getQDelta k false := fun h e => h (hc _ _ e)
  cases pc with
  | load =>
    simp only [QDeltaGen.tnext]
    rcases hs with ⟨h1, h2⟩ | ⟨h1, d, h2, h3, h4⟩
    · simp only [h2, h1, Bool.false_eq_true, if_false]
      exact ⟨Or.inl ⟨h1, h2⟩, trivial, fun _ => rfl, hc⟩
    · simp only [h2, h1, if_true]
      exact ⟨Or.inr ⟨h1, d, h2, h3, h4⟩, trivial, h2, hc⟩
  | index d =>
    have hd : s.attr = .dict d := hp
    rcases hs with ⟨h1, h2⟩ | ⟨h1, d', h2, h3, h4⟩
    · rw [h2] at hd; exact absurd hd (by simp)
    · have hdd : d' = d := by rw [h2] at hd; exact TAttr.dict.inj hd
      subst hdd
      simp only [QDeltaGen.tnext]
      split
      · rename_i b hb
        refine ⟨Or.inr ⟨h1, d', h2, h3, h4⟩, rfl, fun h => ?_, hc⟩
        rcases h with h | h
        · rw [h, h4] at hb; exact (Option.some.inj hb).symm
        · rw [h1] at h; exact absurd h (by simp)
      · rename_i hb
        refine ⟨Or.inr ⟨h1, d', h2, h3, h4⟩, rfl, ⟨rfl, fun h => ?_, h1⟩, hc⟩
        rw [h, h4] at hb; exact absurd hb (by simp)
  | compute m =>
    simp only [QDeltaGen.tnext]
    split_ifs
    · split
      · exact ⟨hs, rfl, hp, hc⟩
      · exact ⟨hs, rfl, hp, hc⟩
    · split
      · exact ⟨hs, rfl, hne hp.2.1⟩
      · exact ⟨hal _, rfl, hp, hc⟩
  | memoCompute m =>
    simp only [QDeltaGen.tnext]
    split
    · exact ⟨hs, rfl, hne hp.2.1⟩
    · exact ⟨hal _, rfl, hp, hc⟩
  | memoStore m b => exact ⟨hs, rfl, hp, hc⟩
  | memoLoad m =>
    simp only [QDeltaGen.tnext]
    split
    · exact ⟨hs, rfl, hp, hc⟩
    · exact ⟨hs, rfl, hne hp.2.1⟩
  | store m b =>
    obtain ⟨rfl, h2, h3⟩ := hp
    simp only [QDeltaGen.tnext]
    split
    · exact ⟨hs, rfl, ⟨h2, h3⟩, hc⟩
    · exact ⟨hs, rfl, hne h2⟩
    · exact ⟨hs, rfl, hne h2⟩
  | insert d b =>
    obtain ⟨h2, h3⟩ := hp
    simp only [QDeltaGen.tnext]
    refine ⟨?_, trivial, fun h => ?_, hc⟩
    · rcases hs with ⟨h1, h4⟩ | ⟨h1, d', h4, h5, h6⟩
      · rw [h1] at h3; exact absurd h3 (by simp)
      · exact Or.inr ⟨h1, d', h4, by simpa using h5, by rw [lookup_modify b h2]; exact h6⟩
    · rcases h with h | h
      · exact absurd h h2
      · rw [h3] at h; exact absurd h (by simp)
  | ret b =>
    simp only [QDeltaGen.tnext]
    split
    · exact ⟨hal _, rfl, by simp⟩
    · rename_i k0
      exact ⟨hs, rfl, fun h => hp (Or.inl (by
        have := hc _ _ rfl
        rw [this]; exact (TCall.getQDelta.inj h).1))⟩
    · exact ⟨hal _, rfl, by simp⟩
    · split
      · exact ⟨hs, rfl, trivial, by intro k0 b h; exact absurd h (by simp)⟩
      · exact ⟨hs, rfl, by simp⟩

/-- The array is kept, and no thread can replace it. -/
structure KeptInv (g : QDeltaGen) (k : Option ℤ) (a : ℕ) (C : TConfig g.size) : Prop where
  store : Kept g k a C.store
  threads : ∀ t c got k' todo pc, C.threads t = .run c got k' todo pc → PcKept g k a C.store k' pc ∧ CallOk c k'

theorem PcKept.attr {k : Option ℤ} {a : ℕ} {s s' : TStore g.size} (h : s'.attr = s.attr) {k' : Option ℤ} {pc : Pc}
    (hp : PcKept g k a s k' pc) : PcKept g k a s' k' pc := by
  cases pc with
  | index d => exact h.trans hp
  | _ => exact hp

theorem KeptInv.update {k : Option ℤ} {a : ℕ} {C : TConfig g.size} (hC : KeptInv g k a C) {s : TStore g.size} (hs : Kept g k a s)
    (h : s.attr = C.store.attr) (t : ℕ) (th : TThread)
    (hth : ∀ c got k' todo pc, th = .run c got k' todo pc → PcKept g k a s k' pc ∧ CallOk c k') (kn : List ℕ) (l : List TEntry) :
    KeptInv g k a ⟨s, Function.update C.threads t th, kn, l⟩ := by
  refine ⟨hs, fun t' c got k' todo pc he => ?_⟩
  simp only at he
  by_cases ht : t' = t
  · subst ht
    rw [Function.update_self] at he
    exact hth _ _ _ _ _ he
  · rw [Function.update_of_ne ht] at he
    obtain ⟨h1, h2⟩ := hC.threads _ _ _ _ _ _ he
    exact ⟨h1.attr h, h2⟩

theorem KeptInv.act {k : Option ℤ} {a : ℕ} {C : TConfig g.size} (hC : KeptInv g k a C) (x : TAct g.size) :
    KeptInv g k a (g.tact C x) ∧ ∃ l, (g.tact C x).log = C.log ++ l ∧ ∀ e ∈ l, e.call = .getQDelta k false → e.addr = some a := by
  cases x with
  | begin t c =>
    simp only [QDeltaGen.tact]
    split
    · refine ⟨hC.update hC.store rfl t _ (fun c' got k' todo pc h => ?_) _ _, [], by simp, by simp⟩
      obtain ⟨rfl, -, rfl, -, rfl⟩ := TThread.run.inj h
      exact ⟨trivial, fun k0 b h => by rw [h]; rfl⟩
    · exact ⟨hC, [], by simp, by simp⟩
  | interrupt t => exact ⟨hC.update hC.store rfl t _ (by simp) _ _, [], by simp [QDeltaGen.tact], by simp⟩
  | write b A =>
    simp only [QDeltaGen.tact]
    split_ifs
    · exact ⟨⟨hC.store, fun t c got k' todo pc h => ⟨(hC.threads t c got k' todo pc h).1.attr rfl, (hC.threads t c got k' todo pc h).2⟩⟩,
        [], by simp, by simp⟩
    · exact ⟨hC, [], by simp, by simp⟩
  | advance t =>
    simp only [QDeltaGen.tact]
    split
    · exact ⟨hC, [], by simp, by simp⟩
    · rename_i c got k' todo pc ht
      obtain ⟨hp, hc⟩ := hC.threads _ _ _ _ _ _ ht
      obtain ⟨n1, n2, n3⟩ := hC.store.next c got k' todo pc hp hc
      split <;> (rename_i he; rw [he] at n1 n2 n3; simp only at n1 n2 n3)
      · refine ⟨hC.update n1 n2 t _ (fun c' got k' todo pc h => ?_) _ _, [], by simp, by simp⟩
        obtain ⟨rfl, -, rfl, -, rfl⟩ := TThread.run.inj h
        exact n3
      · refine ⟨hC.update n1 n2 t _ (by simp) _ _, _, rfl, fun e he h => ?_⟩
        rw [List.mem_singleton] at he
        subst he
        exact absurd h n3
      · refine ⟨hC.update n1 n2 t _ (by simp) _ _, _, rfl, fun e he h => ?_⟩
        rw [List.mem_singleton] at he
        subst he
        exact congrArg some (n3 h)
      · refine ⟨hC.update n1 n2 t _ (by simp) _ _, _, rfl, fun e he h => ?_⟩
        rw [List.mem_singleton] at he
        subst he
        exact absurd h n3

theorem KeptInv.foldl {k : Option ℤ} {a : ℕ} (h : List (TAct g.size)) : ∀ C : TConfig g.size, KeptInv g k a C →
    ∃ l, (h.foldl g.tact C).log = C.log ++ l ∧ ∀ e ∈ l, e.call = .getQDelta k false → e.addr = some a := by
  induction h with
  | nil => exact fun C _ => ⟨[], by simp, by simp⟩
  | cons x h ih =>
    intro C hC
    obtain ⟨h1, l1, h2, h3⟩ := hC.act x
    obtain ⟨l2, h4, h5⟩ := ih _ h1
    refine ⟨l1 ++ l2, by rw [List.foldl_cons, h4, h2, List.append_assoc], fun e he => ?_⟩
    rcases List.mem_append.1 he with he | he
    · exact h3 e he
    · exact h5 e he

/-- A call that no other thread disturbs leaves its array in the cache. -/
theorem quiet_call (C : TConfig g.size) (hs : AttrOk g C.store) (hidle : ∀ t, C.threads t = .idle) (t : ℕ) (k : Option ℤ)
    (A : Matrix (Fin g.size) (Fin g.size) ℝ) (hA : g.compute k = .ok A) :
    ∃ a R, ((TAct.begin t (.getQDelta k false) :: List.replicate 9 (.advance t)).foldl g.tact C).log =
        C.log ++ [⟨t, .getQDelta k false, some a, .ok R⟩] ∧
      KeptInv g k a ((TAct.begin t (.getQDelta k false) :: List.replicate 9 (.advance t)).foldl g.tact C) := by
  obtain ⟨⟨heap, dicts, attr, memo⟩, threads, known, log⟩ := C
  have hth : threads = fun _ => .idle := funext hidle
  subst hth
  have fin : ∀ (s : TStore g.size) (a : ℕ) (kn : List ℕ) (l : List TEntry) (th : ℕ → TThread), (∀ t, th t = .idle) → Kept g k a s →
      KeptInv g k a ⟨s, th, kn, l⟩ := fun s a kn l th h1 h2 =>
    ⟨h2, fun t' c got k' todo pc he => absurd ((h1 t').symm.trans he) (by simp)⟩
  have hup : ∀ t' : ℕ, Function.update (fun _ : ℕ => TThread.idle) t .idle t' = .idle := fun t' => by
    rw [Function.update_apply]; split_ifs <;> rfl
  have hkd : g.kDependent = true ∨ g.kDependent = false := by cases g.kDependent <;> simp
  have hsh : g.shared k = true ∨ g.shared k = false := by cases g.shared k <;> simp
  cases attr with
  | unset =>
    rcases hsh with hsh | hsh
    · cases memo with
      | none =>
        rcases hkd with hkd | hkd
        · refine ⟨heap.length, ?_⟩
          simp [List.replicate, QDeltaGen.tact, QDeltaGen.tnext, TCall.first, TCall.rest, hkd, hsh, hA, TStore.alloc]
          refine fin _ _ _ _ _ (fun _ => by first | rfl | exact hup _) (Or.inr ⟨hkd, _, rfl, by simp, by simp⟩)
        · refine ⟨heap.length, ?_⟩
          simp [List.replicate, QDeltaGen.tact, QDeltaGen.tnext, TCall.first, TCall.rest, hkd, hsh, hA, TStore.alloc]
          refine fin _ _ _ _ _ (fun _ => by first | rfl | exact hup _) (Or.inl ⟨hkd, rfl⟩)
      | some b =>
        rcases hkd with hkd | hkd
        · refine ⟨b, ?_⟩
          simp [List.replicate, QDeltaGen.tact, QDeltaGen.tnext, TCall.first, TCall.rest, hkd, hsh, hA, TStore.alloc]
          refine fin _ _ _ _ _ (fun _ => by first | rfl | exact hup _) (Or.inr ⟨hkd, _, rfl, by simp, by simp⟩)
        · refine ⟨b, ?_⟩
          simp [List.replicate, QDeltaGen.tact, QDeltaGen.tnext, TCall.first, TCall.rest, hkd, hsh, hA, TStore.alloc]
          refine fin _ _ _ _ _ (fun _ => by first | rfl | exact hup _) (Or.inl ⟨hkd, rfl⟩)
    · rcases hkd with hkd | hkd
      · refine ⟨heap.length, ?_⟩
        simp [List.replicate, QDeltaGen.tact, QDeltaGen.tnext, TCall.first, TCall.rest, hkd, hsh, hA, TStore.alloc]
        refine fin _ _ _ _ _ (fun _ => by first | rfl | exact hup _) (Or.inr ⟨hkd, _, rfl, by simp, by simp⟩)
      · refine ⟨heap.length, ?_⟩
        simp [List.replicate, QDeltaGen.tact, QDeltaGen.tnext, TCall.first, TCall.rest, hkd, hsh, hA, TStore.alloc]
        refine fin _ _ _ _ _ (fun _ => by first | rfl | exact hup _) (Or.inl ⟨hkd, rfl⟩)
  | array b =>
    have hkd : g.kDependent = false := hs
    refine ⟨b, ?_⟩
    simp [List.replicate, QDeltaGen.tact, QDeltaGen.tnext, TCall.first, TCall.rest, hkd]
    exact fin _ _ _ _ _ (fun _ => by first | rfl | exact hup _) (Or.inl ⟨hkd, rfl⟩)
  | dict d =>
    obtain ⟨hkd, hd⟩ : g.kDependent = true ∧ d < dicts.length := hs
    cases hl : (dicts.getD d []).lookup k with
    | some b =>
      refine ⟨b, ?_⟩
      simp only [List.replicate, List.foldl_cons, List.foldl_nil, QDeltaGen.tact, QDeltaGen.tnext, TCall.first, TCall.rest, hkd, hl, if_true,
        Function.update_self, Function.update_idem]
      exact ⟨_, rfl, fin _ _ _ _ _ (fun _ => by first | rfl | exact hup _) (Or.inr ⟨hkd, d, rfl, hd, hl⟩)⟩
    | none =>
      have hlook : ∀ b, ((dicts.modify d ((k, b) :: ·)).getD d []).lookup k = some b := fun b => by
        rw [List.getD_eq_getElem?_getD, List.getElem?_modify, List.getElem?_eq_getElem hd]
        simp
      rcases hsh with hsh | hsh
      · cases memo with
        | none =>
          refine ⟨heap.length, ?_⟩
          simp only [List.replicate, List.foldl_cons, List.foldl_nil, QDeltaGen.tact, QDeltaGen.tnext, TCall.first, TCall.rest, hkd, hl,
            if_true, Function.update_self, Function.update_idem, hsh, hA, TStore.alloc]
          exact ⟨_, rfl, fin _ _ _ _ _ (fun _ => by first | rfl | exact hup _) (Or.inr ⟨hkd, d, rfl, by simpa using hd, hlook _⟩)⟩
        | some b =>
          refine ⟨b, ?_⟩
          simp only [List.replicate, List.foldl_cons, List.foldl_nil, QDeltaGen.tact, QDeltaGen.tnext, TCall.first, TCall.rest, hkd, hl,
            if_true, Function.update_self, Function.update_idem, hsh, hA, TStore.alloc]
          exact ⟨_, rfl, fin _ _ _ _ _ (fun _ => by first | rfl | exact hup _) (Or.inr ⟨hkd, d, rfl, by simpa using hd, hlook _⟩)⟩
      · refine ⟨heap.length, ?_⟩
        simp only [List.replicate, List.foldl_cons, List.foldl_nil, QDeltaGen.tact, QDeltaGen.tnext, TCall.first, TCall.rest, hkd, hl,
          if_true, Function.update_self, Function.update_idem, hsh, hA, TStore.alloc, Bool.false_eq_true, if_false]
        exact ⟨_, rfl, fin _ _ _ _ _ (fun _ => by first | rfl | exact hup _) (Or.inr ⟨hkd, d, rfl, by simpa using hd, hlook _⟩)⟩

end cache

/-- C111 (cached arrays stay): after any history, when no call is going on, one call `getQDelta(k, copy=False)` that is not disturbed settles the
array of sweep `k`: in every schedule that follows, with any number of threads and interruptions, all such calls return this same array. -/
theorem C111_cached (g : QDeltaGen) (h h' : List (TAct g.size)) (hidle : ∀ t, (g.schedule h).threads t = .idle) (t : ℕ) (k : Option ℤ)
    (A : Matrix (Fin g.size) (Fin g.size) ℝ) (hA : g.compute k = .ok A) :
    ∃ a R l, (g.schedule (h ++ (.begin t (.getQDelta k false) :: List.replicate 9 (.advance t)) ++ h')).log =
        (g.schedule h).log ++ ⟨t, .getQDelta k false, some a, .ok R⟩ :: l ∧
      ∀ e ∈ l, e.call = .getQDelta k false → e.addr = some a := by
  obtain ⟨a, R, h1, h2⟩ := quiet_call (g.schedule h) (AttrOk.schedule h) hidle t k A hA
  obtain ⟨l, h3, h4⟩ := h2.foldl h'
  refine ⟨a, R, l, ?_, h4⟩
  rw [QDeltaGen.schedule, List.foldl_append, List.foldl_append]
  change (List.foldl g.tact (List.foldl g.tact (g.schedule h) _) h').log = _
  rw [h3, h1, List.append_assoc]
  rfl

namespace Registry

/-- C111 (refused registrations): a thread that only registers classes with a name or alias that is in the registry from the start gets
`AssertionError` from each of its calls that end, in every schedule. -/
theorem C111_refused (h : Heap) (d : Dict) (acts : List RAct) (t : ℕ)
    (ht : ∀ cls key rest, .store t cls key rest ∈ acts → ∃ k ∈ key :: rest, (d.lookup k).isSome) (cls : ℕ) (r : PyResult Unit)
    (hr : .stored t cls r ∈ (rschedule h d acts).log) : r = .error .assertionError := by
  have key : ∀ (acts : List RAct) (C : RConfig), (∀ cls key rest, .store t cls key rest ∈ acts → ∃ k ∈ key :: rest, (d.lookup k).isSome) →
      (∀ k, (d.lookup k).isSome → (C.dico.lookup k).isSome) →
      (∀ t' cls key rest, C.threads t' = .assign cls key rest → (d.lookup key).isSome = false) →
      (∀ cls key rest, C.threads t = .check cls key rest → ∃ k ∈ key :: rest, (d.lookup k).isSome) →
      (∀ cls key rest, C.threads t = .assign cls key rest → ∃ k ∈ rest, (d.lookup k).isSome) →
      (∀ cls r, .stored t cls r ∈ C.log → r = .error .assertionError) →
      ∀ cls r, .stored t cls r ∈ (acts.foldl (ract h) C).log → r = .error .assertionError := by
    intro acts
    induction acts with
    | nil => exact fun C _ _ _ _ _ h => h
    | cons a acts ih =>
      intro C h0 h1 h2 h3 h4 h5
      have h0' : ∀ cls key rest, .store t cls key rest ∈ acts → ∃ k ∈ key :: rest, (d.lookup k).isSome :=
        fun cls key rest hm => h0 cls key rest (List.mem_cons_of_mem _ hm)
      -- a thread goes on
      have upd : ∀ (t' : ℕ) (th : RThread) (di : Dict) (l : List REntry), (∀ k, (d.lookup k).isSome → (di.lookup k).isSome) →
          (∀ cls key rest, th = .assign cls key rest → (d.lookup key).isSome = false) →
          (t' = t → ∀ cls key rest, th = .check cls key rest → ∃ k ∈ key :: rest, (d.lookup k).isSome) →
          (t' = t → ∀ cls key rest, th = .assign cls key rest → ∃ k ∈ rest, (d.lookup k).isSome) →
          (∀ cls r, .stored t cls r ∈ l → r = .error .assertionError) →
          ∀ cls r, .stored t cls r ∈ (acts.foldl (ract h) ⟨di, Function.update C.threads t' th, l⟩).log → r = .error .assertionError := by
        intro t' th di l g1 g2 g3 g4 g5
        refine ih _ h0' g1 ?_ ?_ ?_ g5
        · intro t'' cls key rest he
          simp only [Function.update_apply] at he
          split_ifs at he
          · exact g2 _ _ _ he
          · exact h2 _ _ _ _ he
        · intro cls key rest he
          simp only [Function.update_apply] at he
          split_ifs at he with hq
          · exact g3 hq.symm _ _ _ he
          · exact h3 _ _ _ he
        · intro cls key rest he
          simp only [Function.update_apply] at he
          split_ifs at he with hq
          · exact g4 hq.symm _ _ _ he
          · exact h4 _ _ _ he
      rw [List.foldl_cons]
      cases a with
      | store t' cls key rest =>
        simp only [ract]
        split
        · refine upd t' _ _ _ h1 (by simp) ?_ (by simp) h5
          rintro rfl _ _ _ he
          cases he
          exact h0 _ _ _ List.mem_cons_self
        · exact ih C h0' h1 h2 h3 h4 h5
      | getClasses t' m =>
        simp only [ract]
        split
        · exact upd t' _ _ _ h1 (by simp) (by simp) (by simp) h5
        · exact ih C h0' h1 h2 h3 h4 h5
      | interrupt t' => exact upd t' _ _ _ h1 (by simp) (by simp) (by simp) h5
      | advance t' =>
        simp only [ract]
        split
        · exact ih C h0' h1 h2 h3 h4 h5
        · rename_i cls key rest he
          split_ifs with hl
          · refine upd t' _ _ _ h1 (by simp) (by simp) (by simp) ?_
            intro cls' r hm
            rcases List.mem_append.1 hm with hm | hm
            · exact h5 _ _ hm
            · rw [List.mem_singleton] at hm
              cases hm
              rfl
          · have hkd : (d.lookup key).isSome = false := by
              by_contra hcon
              exact hl (h1 key (by simpa using hcon))
            refine upd t' _ _ _ h1 ?_ (by simp) ?_ h5
            · rintro _ _ _ he'
              cases he'
              exact hkd
            · rintro rfl _ _ _ he'
              cases he'
              obtain ⟨k, hk, hk'⟩ := h3 _ _ _ he
              rcases List.mem_cons.1 hk with rfl | hk
              · rw [hkd] at hk'; exact absurd hk' (by simp)
              · exact ⟨k, hk, hk'⟩
        · rename_i cls key rest he
          have hdi : ∀ k, (d.lookup k).isSome → ((dictSet C.dico key cls).lookup k).isSome := fun k hk => by
            have hne : k ≠ key := by
              rintro rfl
              rw [h2 _ _ _ _ he] at hk
              exact absurd hk (by simp)
            rw [lookup_dictSet_other C.dico hne cls]
            exact h1 k hk
          split
          · rename_i key' rest'
            refine upd t' _ _ _ hdi (by simp) ?_ (by simp) h5
            rintro rfl _ _ _ he'
            cases he'
            exact h4 _ _ _ he
          · refine upd t' _ _ _ hdi (by simp) (by simp) (by simp) ?_
            intro cls' r hm
            rcases List.mem_append.1 hm with hm | hm
            · exact h5 _ _ hm
            · rw [List.mem_singleton] at hm
              cases hm
              obtain ⟨k, hk, -⟩ := h4 _ _ _ he
              exact absurd hk (by simp)
        · have hlog : ∀ (e : REntry), (∀ cls r, e ≠ .stored t cls r) → ∀ cls r, .stored t cls r ∈ C.log ++ [e] → r = .error .assertionError := by
            intro e hne cls r hm
            rcases List.mem_append.1 hm with hm | hm
            · exact h5 _ _ hm
            · rw [List.mem_singleton] at hm
              exact absurd hm.symm (hne _ _)
          split_ifs
          · exact upd t' _ _ _ h1 (by simp) (by simp) (by simp) (hlog _ (by simp))
          · split
            · exact upd t' _ _ _ h1 (by simp) (by simp) (by simp) (hlog _ (by simp))
            · exact upd t' _ _ _ h1 (by simp) (by simp) (by simp) h5
  exact key acts _ ht (fun k hk => hk) (by simp [RConfig.init]) (by simp [RConfig.init]) (by simp [RConfig.init]) (by simp [RConfig.init])
    cls r hr

/-- Instance: a class with a new name and an alias that is taken, while another thread registers its own. -/
example (h : Heap) : ∃ acts : List RAct, .stored 0 1 (.error .assertionError) ∈ (rschedule h [("A", 0)] acts).log ∧
    .stored 1 2 (.ok ()) ∈ (rschedule h [("A", 0)] acts).log ∧ (∀ cls key rest, .store 0 cls key rest ∈ acts →
      ∃ k ∈ key :: rest, (List.lookup k [("A", 0)]).isSome) :=
  ⟨[.store 0 1 "B" ["A"], .store 1 2 "C" [], .advance 0, .advance 1, .advance 0, .advance 1, .advance 0],
    by simp [rschedule, ract, RConfig.init, dictSet, Function.update], by simp [rschedule, ract, RConfig.init, dictSet, Function.update],
    by simp only [List.mem_cons, RAct.store.injEq]; rintro cls key rest (⟨-, -, rfl, rfl⟩ | h) <;> simp_all⟩

end Registry

/-- Instance: after a first undisturbed call, two threads that overlap get the same array. -/
example (g : QDeltaGen) (A : Matrix (Fin g.size) (Fin g.size) ℝ) (hA : g.compute (some 1) = .ok A) : ∃ a R l,
    (g.schedule ([] ++ (.begin 0 (.getQDelta (some 1) false) :: List.replicate 9 (.advance 0)) ++ twoThreads g.size (some 1) false)).log =
      [] ++ ⟨0, .getQDelta (some 1) false, some a, .ok R⟩ :: l ∧ ∀ e ∈ l, e.call = .getQDelta (some 1) false → e.addr = some a :=
  C111_cached g [] _ (fun _ => rfl) 0 (some 1) A hA

end QMat
