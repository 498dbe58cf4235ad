import Verif.Model.Import
import Verif.Props.Registry

/-!
# C109: what is registered after the package is imported, after an interrupted import, and after reloads
-/

namespace QMat.Registry

variable {p : Package} {faults : Bool} {h : Heap}

/-- The submodule `m` has a class statement for the class `c`. -/
def Package.Declares (p : Package) (m : String) (c : ℕ) : Prop := Stmt.reg c ∈ p.body m

/-- `k` is the name or an alias of the class. -/
def IsKey (h : Heap) (c : ℕ) (k : String) : Prop := ∃ ks, classKeys h c = some ks ∧ k ∈ ks

/-- `register` behaves like those of the package (`registerQ_stores`, `registerQDelta_stores`). -/
def Package.Registers (p : Package) (h : Heap) : Prop := ∀ c d, Stores h c d (p.register c d).1 (p.register c d).2

/-- No two classes of the package have a key in common, no class is declared twice, and every declared class is accepted if its keys
are new. -/
structure Package.Sound (p : Package) (h : Heap) : Prop where
  registers : p.Registers h
  once : ∀ m, (p.body m).Nodup
  one : ∀ m m' c, p.Declares m c → p.Declares m' c → m = m'
  keys : ∀ m m' c c' k, p.Declares m c → p.Declares m' c' → IsKey h c k → IsKey h c' k → c = c'
  accepts : ∀ m c d ks, p.Declares m c → classKeys h c = some ks → Fresh d ks → (p.register c d).2 = .ok ()
  hasKeys : ∀ m c, p.Declares m c → ∃ ks, classKeys h c = some ks ∧ ks.Nodup
  closed : ∀ m m', Stmt.imp m' ∈ p.body m → m' ∈ p.walk

theorem reg_lookup (hreg : p.Registers h) {c : ℕ} {d d' : Dict} (hr : p.register c d = (d', .ok ())) (k : String) (c' : ℕ) :
    d'.lookup k = some c' ↔ d.lookup k = some c' ∨ (c' = c ∧ IsKey h c k) := by
  have hs := hreg c d
  rw [hr] at hs
  obtain ⟨ks, hks, e, hf⟩ := hs.all rfl
  simp only at e
  rw [e, lookup_append, lookup_const]
  by_cases hk : k ∈ ks
  · rw [hf.2 k hk, if_pos hk]
    simp only [Option.none_or, Option.some.injEq, reduceCtorEq, false_or]
    exact ⟨fun h => ⟨h.symm, ks, hks, hk⟩, fun h => h.1.symm⟩
  · rw [if_neg hk]
    simp only [Option.or_none]
    refine ⟨Or.inl, ?_⟩
    rintro (h | ⟨-, ks', hks', hk'⟩)
    · exact h
    · rw [hks] at hks'; cases hks'; exact absurd hk' hk

/-- What an execution does not change. -/
theorem exec_mono {l : List Stmt} {s s' : ImportState} {r : PyResult Unit} (hx : p.Exec faults l s s' r) :
    s'.package = s.package ∧ s.modules ⊆ s'.modules := by
  induction hx with
  | done => exact ⟨rfl, fun _ h => h⟩
  | fault => exact ⟨rfl, fun _ h => h⟩
  | found _ _ ih => exact ih
  | load _ _ _ ihb ih => exact ⟨ih.1.trans ihb.1, fun x hx => ih.2 (ihb.2 (List.mem_cons_of_mem _ hx))⟩
  | loadErr hm _ ihb =>
    refine ⟨ihb.1, fun x hx => ?_⟩
    simp only [List.mem_filter, decide_eq_true_eq]
    exact ⟨ihb.2 (List.mem_cons_of_mem _ hx), fun e => hm (e ▸ hx)⟩
  | reg _ _ ih => exact ih
  | regErr => exact ⟨rfl, fun _ h => h⟩

/-- Where the modules of an execution come from. -/
theorem exec_modules (hcl : ∀ m m', Stmt.imp m' ∈ p.body m → m' ∈ p.walk) {l : List Stmt} {s s' : ImportState} {r : PyResult Unit}
    (hx : p.Exec faults l s s' r) (hl : ∀ m, Stmt.imp m ∈ l → m ∈ p.walk) : ∀ m ∈ s'.modules, m ∈ s.modules ∨ m ∈ p.walk := by
  induction hx with
  | done => exact fun _ h => Or.inl h
  | fault => exact fun _ h => Or.inl h
  | found _ _ ih => exact ih fun m h => hl m (List.mem_cons_of_mem _ h)
  | @load m rest s s1 s' r _ _ _ ihb ih =>
    intro x hx
    rcases ih (fun m h => hl m (List.mem_cons_of_mem _ h)) x hx with h1 | h1
    · rcases ihb (fun m' h => hcl _ m' h) x h1 with h2 | h2
      · rcases List.mem_cons.1 h2 with rfl | h3
        · exact Or.inr (hl _ List.mem_cons_self)
        · exact Or.inl h3
      · exact Or.inr h2
    · exact Or.inr h1
  | @loadErr m rest s s1 e _ _ ihb =>
    intro x hx
    simp only [List.mem_filter, decide_eq_true_eq] at hx
    rcases ihb (fun m' h => hcl _ m' h) x hx.1 with h2 | h2
    · rcases List.mem_cons.1 h2 with rfl | h3
      · exact absurd rfl hx.2
      · exact Or.inl h3
    · exact Or.inr h2
  | reg _ _ ih => exact ih fun m h => hl m (List.mem_cons_of_mem _ h)
  | regErr => exact fun _ h => Or.inl h

/-- The registry after an execution that ends. -/
theorem exec_ok (hreg : p.Registers h) {l : List Stmt} {s s' : ImportState} {r : PyResult Unit} (hx : p.Exec faults l s s' r)
    (hr : r = .ok ()) : (∀ m, Stmt.imp m ∈ l → m ∈ s'.modules) ∧
      ∀ k c, s'.dico.lookup k = some c ↔ s.dico.lookup k = some c ∨
        ((Stmt.reg c ∈ l ∨ ∃ m ∈ s'.modules, m ∉ s.modules ∧ p.Declares m c) ∧ IsKey h c k) := by
  induction hx with
  | @done s =>
    refine ⟨by simp, fun k c => ⟨Or.inl, ?_⟩⟩
    rintro (h | ⟨h | ⟨m, h1, h2, -⟩, -⟩)
    · exact h
    · simp at h
    · exact absurd h1 h2
  | fault => cases hr
  | @found m rest s s' r hm hx ih =>
    obtain ⟨i1, i2⟩ := ih hr
    refine ⟨fun x hxm => ?_, fun k c => ?_⟩
    · rcases List.mem_cons.1 hxm with e | e
      · cases e; exact (exec_mono hx).2 hm
      · exact i1 x e
    · rw [i2]; simp
  | @load m rest s s1 s' r hm hb hx ihb ih =>
    obtain ⟨i1, i2⟩ := ih hr
    obtain ⟨b1, b2⟩ := ihb rfl
    obtain ⟨-, mb⟩ := exec_mono hb
    obtain ⟨-, mx⟩ := exec_mono hx
    simp only at b2
    refine ⟨fun x hxm => ?_, fun k c => ?_⟩
    · rcases List.mem_cons.1 hxm with e | e
      · cases e; exact mx (mb List.mem_cons_self)
      · exact i1 x e
    · rw [i2, b2]
      constructor
      · rintro ((h1 | ⟨h1 | ⟨m', h1, h2, h3⟩, hk⟩) | ⟨h1 | ⟨m', h1, h2, h3⟩, hk⟩)
        · exact Or.inl h1
        · exact Or.inr ⟨Or.inr ⟨m, mx (mb List.mem_cons_self), hm, h1⟩, hk⟩
        · exact Or.inr ⟨Or.inr ⟨m', mx h1, fun e => h2 (List.mem_cons_of_mem _ e), h3⟩, hk⟩
        · exact Or.inr ⟨Or.inl (List.mem_cons_of_mem _ h1), hk⟩
        · exact Or.inr ⟨Or.inr ⟨m', h1, fun e => h2 (mb (List.mem_cons_of_mem _ e)), h3⟩, hk⟩
      · rintro (h1 | ⟨h1 | ⟨m', h1, h2, h3⟩, hk⟩)
        · exact Or.inl (Or.inl h1)
        · exact Or.inr ⟨Or.inl (by simpa using h1), hk⟩
        · by_cases e : m' ∈ s1.modules
          · by_cases e' : m' = m
            · subst e'; exact Or.inl (Or.inr ⟨Or.inl h3, hk⟩)
            · exact Or.inl (Or.inr ⟨Or.inr ⟨m', e, by simp [e', h2], h3⟩, hk⟩)
          · exact Or.inr ⟨Or.inr ⟨m', h1, e, h3⟩, hk⟩
  | loadErr => cases hr
  | @reg c rest s s' d r hrg hx ih =>
    obtain ⟨i1, i2⟩ := ih hr
    refine ⟨fun x hxm => i1 x (by simpa using hxm), fun k c' => ?_⟩
    rw [i2]
    simp only
    rw [reg_lookup hreg hrg]
    constructor
    · rintro ((h1 | ⟨rfl, h1⟩) | ⟨h1 | h1, hk⟩)
      · exact Or.inl h1
      · exact Or.inr ⟨Or.inl List.mem_cons_self, h1⟩
      · exact Or.inr ⟨Or.inl (List.mem_cons_of_mem _ h1), hk⟩
      · exact Or.inr ⟨Or.inr h1, hk⟩
    · rintro (h1 | ⟨h1 | h1, hk⟩)
      · exact Or.inl (Or.inl h1)
      · rcases List.mem_cons.1 h1 with e | e
        · cases e; exact Or.inl (Or.inr ⟨rfl, hk⟩)
        · exact Or.inr ⟨Or.inl e, hk⟩
      · exact Or.inr ⟨Or.inr h1, hk⟩
  | regErr => cases hr

theorem main_imp {m : String} : Stmt.imp m ∈ p.main ↔ m ∈ p.walk := by simp [Package.main]

theorem main_reg {c : ℕ} : Stmt.reg c ∉ p.main := by simp [Package.main]

/-- C109: a successful import, in whatever state the session is: the registry has exactly the classes of the submodules that were not in
`sys.modules` before, under their names and aliases; all submodules are loaded. -/
theorem C109_import (hreg : p.Registers h) {s s' : ImportState} (hs : s.package = false) (hi : p.Import faults s s' (.ok ())) :
    p.walk ⊆ s'.modules ∧ s'.package = true ∧ ∀ k c, s'.dico.lookup k = some c ↔
      ∃ m ∈ s'.modules, m ∉ s.modules ∧ p.Declares m c ∧ IsKey h c k := by
  cases hi with
  | found h1 => rw [hs] at h1; cases h1
  | load _ hx =>
    obtain ⟨h1, h2⟩ := exec_ok hreg hx rfl
    refine ⟨fun m hm => h1 m (main_imp.2 hm), (exec_mono hx).1, fun k c => ?_⟩
    rw [h2]
    simp only [List.lookup_nil, reduceCtorEq, false_or, main_reg]
    exact ⟨fun ⟨⟨m, a, b, d⟩, e⟩ => ⟨m, a, b, d, e⟩, fun ⟨m, a, b, d, e⟩ => ⟨⟨m, a, b, d⟩, e⟩⟩

/-- C109: the first import of a session, when it succeeds, registers all classes, in whatever order the submodules are found. -/
theorem C109_first (hp : p.Sound h) {s' : ImportState} (hi : p.Import faults .init s' (.ok ())) (k : String) (c : ℕ) :
    s'.dico.lookup k = some c ↔ ∃ m ∈ p.walk, p.Declares m c ∧ IsKey h c k := by
  obtain ⟨hw, -, hk⟩ := C109_import hp.registers rfl hi
  have hmod : ∀ m ∈ s'.modules, m ∈ p.walk := by
    cases hi with
    | found h1 => cases h1
    | load _ hx =>
      intro m hm
      rcases exec_modules hp.closed hx (fun m h => main_imp.1 h) m hm with h1 | h1
      · cases h1
      · exact h1
  rw [hk]
  constructor
  · rintro ⟨m, h1, -, h3⟩
    exact ⟨m, hmod m h1, h3⟩
  · rintro ⟨m, h1, h3⟩
    exact ⟨m, hw h1, by simp [ImportState.init], h3⟩

/-- C109: after an interrupted import the package is not loaded, and the submodules that stay in `sys.modules` are those that have
registered all their classes, in the registry that is given up. -/
theorem C109_interrupted (hreg : p.Registers h) {s s' : ImportState} {e : PyErr} (hi : p.Import faults s s' (.error e)) :
    s'.package = false ∧ s.modules ⊆ s'.modules ∧ ∀ m ∈ s'.modules, m ∉ s.modules → ∀ c, p.Declares m c → ∀ k, IsKey h c k →
      s'.dico.lookup k = some c := by
  have mono : ∀ {l : List Stmt} {s s' : ImportState} {r : PyResult Unit}, p.Exec faults l s s' r → ∀ k c, s.dico.lookup k = some c →
      s'.dico.lookup k = some c := by
    intro l s s' r hx
    induction hx with
    | done => exact fun _ _ h => h
    | fault => exact fun _ _ h => h
    | found _ _ ih => exact ih
    | load _ _ _ ihb ih => exact fun k c h => ih k c (ihb k c h)
    | loadErr _ _ ihb => exact ihb
    | @reg c rest s s' d r hrg _ ih => exact fun k c' h => ih k c' ((reg_lookup hreg hrg k c').2 (Or.inl h))
    | @regErr c rest s d e hrg =>
      intro k c' hk
      have := (hreg c s.dico).mono hk
      rwa [hrg] at this
  have key : ∀ {l : List Stmt} {s s' : ImportState} {r : PyResult Unit}, p.Exec faults l s s' r →
      ∀ m ∈ s'.modules, m ∉ s.modules → ∀ c, p.Declares m c → ∀ k, IsKey h c k → s'.dico.lookup k = some c := by
    intro l s s' r hx
    induction hx with
    | done => exact fun m h1 h2 => absurd h1 h2
    | fault => exact fun m h1 h2 => absurd h1 h2
    | found _ _ ih => exact ih
    | @load m rest s s1 s' r hm hb hx ihb ih =>
      intro m' h1 h2 c hc k hk
      by_cases e1 : m' ∈ s1.modules
      · refine mono hx k c ?_
        by_cases e2 : m' = m
        · subst e2
          exact ((exec_ok hreg hb rfl).2 k c).2 (Or.inr ⟨Or.inl hc, hk⟩)
        · exact ihb m' e1 (by simp [e2, h2]) c hc k hk
      · exact ih m' h1 e1 c hc k hk
    | @loadErr m rest s s1 e hm hb ihb =>
      intro m' h1 h2 c hc k hk
      simp only [List.mem_filter, decide_eq_true_eq] at h1
      exact ihb m' h1.1 (by simp [h1.2, h2]) c hc k hk
    | reg _ _ ih => exact ih
    | regErr => exact fun m h1 h2 => absurd h1 h2
  cases hi with
  | loadErr _ hx => exact ⟨rfl, (exec_mono hx).2, fun m h1 h2 => key hx m h1 h2⟩

/-- C109, finding: a submodule that was completed before an earlier import was interrupted is not executed again.  After every later
import that succeeds its classes are missing. -/
theorem C109_lost (hp : p.Sound h) {s s' : ImportState} (hs : s.package = false) (hi : p.Import faults s s' (.ok ())) (m : String)
    (hm : m ∈ s.modules) (c : ℕ) (hc : p.Declares m c) (k : String) (hk : IsKey h c k) : s'.dico.lookup k = none := by
  obtain ⟨-, -, hl⟩ := C109_import hp.registers hs hi
  by_contra hne
  obtain ⟨c', hc'⟩ := Option.ne_none_iff_exists'.1 hne
  obtain ⟨m', -, h2, h3, h4⟩ := (hl k c').1 hc'
  obtain rfl := hp.keys m m' c c' k hc h3 hk h4
  exact h2 (hp.one m m' c hc h3 ▸ hm)

/-- Executions without faults end. -/
theorem exec_clean (hp : p.Sound h) {l : List Stmt} {s s' : ImportState} {r : PyResult Unit} (hx : p.Exec false l s s' r)
    (hl : l.Nodup) (hd : ∀ c, Stmt.reg c ∈ l → ∃ m ∈ s.modules, p.Declares m c)
    (hf : ∀ c, Stmt.reg c ∈ l → ∀ k, IsKey h c k → s.dico.lookup k = none)
    (hw : ∀ m, Stmt.imp m ∈ l → m ∈ p.walk)
    (hn : ∀ m ∈ p.walk, m ∉ s.modules → ∀ c, p.Declares m c → ∀ k, IsKey h c k → s.dico.lookup k = none) : r = .ok () := by
  have body : ∀ (m : String) (s : ImportState) (hmw : m ∈ p.walk) (hm : m ∉ s.modules)
      (hn : ∀ m ∈ p.walk, m ∉ s.modules → ∀ c, p.Declares m c → ∀ k, IsKey h c k → s.dico.lookup k = none),
      (∀ c, Stmt.reg c ∈ p.body m → ∃ m' ∈ m :: s.modules, p.Declares m' c) ∧
      (∀ c, Stmt.reg c ∈ p.body m → ∀ k, IsKey h c k → s.dico.lookup k = none) ∧
      (∀ m' ∈ p.walk, m' ∉ m :: s.modules → ∀ c, p.Declares m' c → ∀ k, IsKey h c k → s.dico.lookup k = none) :=
    fun m s hmw hm hn => ⟨fun c hc => ⟨m, List.mem_cons_self, hc⟩, fun c hc => hn m hmw hm c hc,
      fun m' h1 h2 => hn m' h1 fun e => h2 (List.mem_cons_of_mem _ e)⟩
  induction hx with
  | done => rfl
  | fault hfl => cases hfl
  | found _ _ ih => exact ih hl.of_cons (fun c hc => hd c (by simp [hc])) (fun c hc => hf c (by simp [hc])) (fun m hm => hw m (by simp [hm])) hn
  | @load m rest s s1 s' r hm hb hx ihb ih =>
    obtain ⟨-, b2⟩ := exec_ok hp.registers hb rfl
    obtain ⟨-, mb⟩ := exec_mono hb
    simp only at b2
    have keep : ∀ c k, s.dico.lookup k = none → IsKey h c k → (∃ m', p.Declares m' c) →
        (∀ m', p.Declares m' c → m' ∈ s1.modules → m' ∈ s.modules) → s1.dico.lookup k = none := by
      intro c k h0 hk ⟨m1, hm1⟩ hout
      by_contra hne
      obtain ⟨c', hc'⟩ := Option.ne_none_iff_exists'.1 hne
      rcases (b2 k c').1 hc' with h1 | ⟨h1, hk'⟩
      · rw [h0] at h1; cases h1
      obtain ⟨m', h2, h3, h4⟩ : ∃ m' ∈ s1.modules, m' ∉ s.modules ∧ p.Declares m' c' := by
        rcases h1 with h1 | ⟨m', h2, h3, h4⟩
        · exact ⟨m, mb List.mem_cons_self, hm, h1⟩
        · exact ⟨m', h2, fun e => h3 (List.mem_cons_of_mem _ e), h4⟩
      obtain rfl := hp.keys m1 m' c c' k hm1 h4 hk hk'
      exact h3 (hout m' h4 h2)
    refine ih hl.of_cons (fun c hc => ?_) (fun c hc k hk => ?_) (fun m hm => hw m (by simp [hm])) (fun m' h1 h2 c hc k hk => ?_)
    · obtain ⟨m', h1, h2⟩ := hd c (by simp [hc])
      exact ⟨m', mb (List.mem_cons_of_mem _ h1), h2⟩
    · obtain ⟨m', h1, h2⟩ := hd c (by simp [hc])
      exact keep c k (hf c (by simp [hc]) k hk) hk ⟨m', h2⟩ fun m'' h3 _ => hp.one m' m'' c h2 h3 ▸ h1
    · exact keep c k (hn m' h1 (fun e => h2 (mb (List.mem_cons_of_mem _ e))) c hc k hk) hk ⟨m', hc⟩
        fun m'' h3 h4 => absurd (hp.one m' m'' c hc h3 ▸ h4) h2
  | @loadErr m rest s s1 e hm hb ihb =>
    obtain ⟨g1, g2, g3⟩ := body m s (hw m List.mem_cons_self) hm hn
    exact absurd (ihb (hp.once m) g1 g2 (fun m' hm' => hp.closed m m' hm') g3) (by simp)
  | @reg c rest s s' d r hrg hx ih =>
    have hlk := reg_lookup hp.registers hrg
    obtain ⟨m, hm, hmc⟩ := hd c List.mem_cons_self
    have keep : ∀ c' k, s.dico.lookup k = none → IsKey h c' k → (∃ m', p.Declares m' c') → c' ≠ c → d.lookup k = none := by
      intro c' k h0 hk ⟨m1, hm1⟩ hne'
      by_contra hne
      obtain ⟨c2, hc2⟩ := Option.ne_none_iff_exists'.1 hne
      rcases (hlk k c2).1 hc2 with h1 | ⟨rfl, h1⟩
      · rw [h0] at h1; cases h1
      · exact hne' (hp.keys m1 m c' c2 k hm1 hmc hk h1)
    refine ih hl.of_cons (fun c' hc' => hd c' (by simp [hc'])) (fun c' hc' k hk => ?_) (fun m hm => hw m (by simp [hm]))
      (fun m' h1 h2 c' hc' k hk => ?_)
    · obtain ⟨m', -, h2⟩ := hd c' (by simp [hc'])
      exact keep c' k (hf c' (by simp [hc']) k hk) hk ⟨m', h2⟩ fun e => (List.nodup_cons.1 hl).1 (e ▸ hc')
    · exact keep c' k (hn m' h1 h2 c' hc' k hk) hk ⟨m', hc'⟩ fun e => h2 (hp.one m m' c hmc (e ▸ hc') ▸ hm)
  | @regErr c rest s d e hrg =>
    obtain ⟨m, hm, hmc⟩ := hd c List.mem_cons_self
    obtain ⟨ks, hks, hnd⟩ := hp.hasKeys m c hmc
    have := hp.accepts m c s.dico ks hmc hks ⟨hnd, fun k hk => hf c List.mem_cons_self k ⟨ks, hks, hk⟩⟩
    rw [hrg] at this
    cases this

/-- C109: an import during which nothing is raised from outside succeeds, in every state of the session: also after imports that
were interrupted.  (No class is refused because of what an interrupted import has left.) -/
theorem C109_retry (hp : p.Sound h) (hwalk : p.walk.Nodup) {s s' : ImportState} {r : PyResult Unit} (hi : p.Import false s s' r) :
    r = .ok () := by
  cases hi with
  | found => rfl
  | load => rfl
  | loadErr _ hx =>
    refine absurd (exec_clean hp hx ?_ (fun c hc => absurd hc main_reg) (fun c hc => absurd hc main_reg) (fun m hm => main_imp.1 hm)
      fun _ _ _ _ _ _ _ => rfl) (by simp)
    exact hwalk.map fun a b h => by cases h; rfl

/-- Executions without faults exist. -/
theorem exec_exists (hcl : ∀ m m', Stmt.imp m' ∈ p.body m → m' ∈ p.walk) (n : ℕ) : ∀ (l : List Stmt) (s : ImportState),
    (∀ m, Stmt.imp m ∈ l → m ∈ p.walk) → (p.walk.filter fun m => m ∉ s.modules).length ≤ n → ∃ s' r, p.Exec false l s s' r := by
  induction n using Nat.strong_induction_on with
  | _ n ihn =>
    intro l
    induction l with
    | nil => exact fun s _ _ => ⟨s, _, .done⟩
    | cons st l ihl =>
      intro s hl hn
      cases st with
      | reg c =>
        rcases hrg : p.register c s.dico with ⟨d, e | ⟨⟨⟩⟩⟩
        · exact ⟨_, _, .regErr hrg⟩
        · obtain ⟨s', r, hx⟩ := ihl { s with dico := d } (fun m hm => hl m (by simp [hm])) hn
          exact ⟨s', r, .reg hrg hx⟩
      | imp m =>
        by_cases hm : m ∈ s.modules
        · obtain ⟨s', r, hx⟩ := ihl s (fun m hm => hl m (by simp [hm])) hn
          exact ⟨s', r, .found hm hx⟩
        · have hlt : (p.walk.filter fun x => x ∉ m :: s.modules).length < (p.walk.filter fun x => x ∉ s.modules).length := by
            have hsub : (p.walk.filter fun x => x ∉ m :: s.modules) = (p.walk.filter fun x => x ∉ s.modules).filter fun x => x ≠ m := by
              rw [List.filter_filter]
              refine List.filter_congr fun x _ => ?_
              simp
            rw [hsub]
            have hmem : m ∈ p.walk.filter fun x => x ∉ s.modules := by simp [hl m List.mem_cons_self, hm]
            refine lt_of_le_of_ne (List.length_filter_le _ _) fun e => ?_
            have := List.length_filter_eq_length_iff.1 e m hmem
            simp at this
          obtain ⟨s1, r1, hb⟩ := ihn _ (hlt.trans_le hn) (p.body m) { s with modules := m :: s.modules } (fun m' hm' => hcl m m' hm') le_rfl
          rcases r1 with e | ⟨⟨⟩⟩
          · exact ⟨_, _, .loadErr hm hb⟩
          · have hle : (p.walk.filter fun x => x ∉ s1.modules).length < n := by
              refine lt_of_le_of_lt ?_ (hlt.trans_le hn)
              have mb := (exec_mono hb).2
              have : (p.walk.filter fun x => x ∉ s1.modules) = (p.walk.filter fun x => x ∉ m :: s.modules).filter fun x => x ∉ s1.modules := by
                rw [List.filter_filter]
                refine List.filter_congr fun x _ => ?_
                by_cases hx : x ∈ s1.modules
                · simp [hx]
                · have : x ∉ m :: s.modules := fun e => hx (mb e)
                  simp_all
              rw [this]
              exact List.length_filter_le _ _
            obtain ⟨s', r, hx⟩ := ihn _ hle l s1 (fun m hm => hl m (by simp [hm])) le_rfl
            exact ⟨s', r, .load hm hb hx⟩

/-- C109: in every state the import of the package comes to an end. -/
theorem C109_import_ends (hp : p.Sound h) (hwalk : p.walk.Nodup) (s : ImportState) : ∃ s', p.Import false s s' (.ok ()) := by
  cases hs : s.package with
  | true => exact ⟨s, .found hs⟩
  | false =>
    obtain ⟨s', r, hx⟩ := exec_exists hp.closed _ p.main { s with package := true, dico := [] } (fun m hm => main_imp.1 hm) le_rfl
    rcases r with e | ⟨⟨⟩⟩
    · exact absurd (C109_retry hp hwalk (.loadErr hs hx)) (by simp)
    · exact ⟨s', .load hs hx⟩

/-- In a session a loaded package has all its submodules. -/
theorem session_walk {s : ImportState} (hs : p.Session faults s) : s.package = true → p.walk ⊆ s.modules := by
  induction hs with
  | start => exact fun h => by cases h
  | @«import» s s' r _ hi ih =>
    intro hp
    cases hi with
    | found => exact ih hp
    | load h0 hx =>
      intro m hm
      have key : ∀ {l : List Stmt} {s s' : ImportState} {r : PyResult Unit}, p.Exec faults l s s' r → r = .ok () →
          ∀ m, Stmt.imp m ∈ l → m ∈ s'.modules := by
        intro l s s' r hx
        induction hx with
        | done => simp
        | fault => simp
        | found hm hx ih =>
          intro hr m' hm'
          rcases List.mem_cons.1 hm' with e | e
          · cases e; exact (exec_mono hx).2 hm
          · exact ih hr m' e
        | load _ hb hx _ ih =>
          intro hr m' hm'
          rcases List.mem_cons.1 hm' with e | e
          · cases e; exact (exec_mono hx).2 ((exec_mono hb).2 List.mem_cons_self)
          · exact ih hr m' e
        | loadErr => simp
        | reg _ _ ih => exact fun hr m' hm' => ih hr m' (by simpa using hm')
        | regErr => simp
      exact key hx rfl m (main_imp.2 hm)
    | loadErr => cases hp
  | reload _ hi ih =>
    obtain ⟨h1, h2⟩ := hi
    exact fun _ => fun m hm => (exec_mono h2).2 (ih h1 hm)
  | reloadModule _ hi ih =>
    obtain ⟨h1, -, h2⟩ := hi
    exact fun _ => fun m hm => (exec_mono h2).2 (ih h1 hm)

/-- C109, finding: a reload of the package leaves an empty registry, whatever happened before. -/
theorem C109_reload {s s' : ImportState} {r : PyResult Unit} (hs : p.Session faults s) (hi : p.Reload faults s s' r) : s'.dico = [] := by
  obtain ⟨h1, hx⟩ := hi
  have hw := session_walk hs h1
  have key : ∀ {l : List Stmt} {s s' : ImportState} {r : PyResult Unit}, p.Exec faults l s s' r → (∀ st ∈ l, ∃ m ∈ s.modules, st = .imp m) →
      s'.dico = s.dico := by
    intro l s s' r hx
    induction hx with
    | done => exact fun _ => rfl
    | fault => exact fun _ => rfl
    | found _ _ ih => exact fun hl => ih fun st hst => hl st (by simp [hst])
    | load hm =>
      intro hl
      obtain ⟨m, h1, h2⟩ := hl _ List.mem_cons_self
      cases h2
      exact absurd h1 hm
    | loadErr hm =>
      intro hl
      obtain ⟨m, h1, h2⟩ := hl _ List.mem_cons_self
      cases h2
      exact absurd h1 hm
    | reg =>
      intro hl
      obtain ⟨m, h1, h2⟩ := hl _ List.mem_cons_self
      cases h2
    | regErr =>
      intro hl
      obtain ⟨m, h1, h2⟩ := hl _ List.mem_cons_self
      cases h2
  refine key hx fun st hst => ?_
  obtain ⟨m, hm, rfl⟩ := List.mem_map.1 hst
  exact ⟨m, hw hm, rfl⟩

/-- C109: a reload of a submodule whose first class is registered raises, and changes nothing. -/
theorem C109_reload_module (hreg : p.Registers h) {s s' : ImportState} {r : PyResult Unit} {m : String} {c : ℕ} {l : List Stmt}
    (hb : p.body m = .reg c :: l) (hc : s.dico.lookup (h c).name ≠ none) (hi : p.ReloadModule faults m s s' r) : r ≠ .ok () ∧ s' = s := by
  obtain ⟨-, -, hx⟩ := hi
  rw [hb] at hx
  have hst := hreg c s.dico
  have hbad : ∀ ks, ks <+: ((h c).name :: (match getattr h c "aliases" with | some (.strList l) => l | _ => [])) →
      Fresh s.dico ks → ks = [] := by
    intro ks hks hf
    cases ks with
    | nil => rfl
    | cons k ks => exact absurd (hf.2 k List.mem_cons_self) ((List.cons_prefix_cons.1 hks).1 ▸ hc)
  cases hx with
  | fault => exact ⟨by simp, rfl⟩
  | reg hrg _ =>
    rw [hrg] at hst
    obtain ⟨ks, hks, -, hf⟩ := hst.all rfl
    have e := hbad ks (classKeys_eq hks ▸ List.prefix_rfl) hf
    have := classKeys_eq hks
    rw [e] at this
    cases this
  | regErr hrg =>
    rw [hrg] at hst
    obtain ⟨ks, hks, e, hf⟩ := hst.seg
    rw [hbad ks hks hf] at e
    refine ⟨by simp, ?_⟩
    simp only [List.map_nil, List.append_nil] at e
    rw [e]

/-- C109: a submodule whose classes are missing can be reloaded, if nothing is raised from outside; its classes are registered then, the
others stay. -/
theorem C109_repair (hp : p.Sound h) {s s' : ImportState} {r : PyResult Unit} {m : String} (hs : p.Session faults s)
    (hmiss : ∀ c, p.Declares m c → ∀ k, IsKey h c k → s.dico.lookup k = none) (hi : p.ReloadModule false m s s' r) :
    r = .ok () ∧ ∀ k c, s'.dico.lookup k = some c ↔ s.dico.lookup k = some c ∨ (p.Declares m c ∧ IsKey h c k) := by
  obtain ⟨h1, h2, hx⟩ := hi
  have hw := session_walk hs h1
  obtain rfl := exec_clean hp hx (hp.once m) (fun c hc => ⟨m, h2, hc⟩) hmiss (fun m' hm' => hp.closed m m' hm')
    fun m' h3 h4 => absurd (hw h3) h4
  refine ⟨rfl, fun k c => ?_⟩
  rw [(exec_ok hp.registers hx rfl).2]
  refine or_congr_right (and_congr_left fun _ => ⟨?_, Or.inl⟩)
  rintro (h3 | ⟨m', h3, h4, -⟩)
  · exact h3
  · rcases exec_modules hp.closed hx (fun m' hm' => hp.closed m m' hm') m' h3 with h5 | h5
    · exact absurd h5 h4
    · exact absurd (hw h5) h4

theorem exec_faults {l : List Stmt} {s s' : ImportState} {r : PyResult Unit} (hx : p.Exec false l s s' r) : p.Exec true l s s' r := by
  induction hx with
  | done => exact .done
  | fault hf => cases hf
  | found hm _ ih => exact .found hm ih
  | load hm _ _ ihb ih => exact .load hm ihb ih
  | loadErr hm _ ihb => exact .loadErr hm ihb
  | reg hr _ ih => exact .reg hr ih
  | regErr hr => exact .regErr hr

theorem exec_append {l l' : List Stmt} {s s1 s' : ImportState} {r r1 : PyResult Unit} (hx : p.Exec faults l s s1 r1) (hr1 : r1 = .ok ())
    (hx' : p.Exec faults l' s1 s' r) : p.Exec faults (l ++ l') s s' r := by
  induction hx with
  | done => exact hx'
  | fault => cases hr1
  | found hm _ ih => exact .found hm (ih hr1 hx')
  | load hm hb _ _ ih => exact .load hm hb (ih hr1 hx')
  | loadErr => cases hr1
  | reg hr _ ih => exact .reg hr (ih hr1 hx')
  | regErr => cases hr1

/-- C109, finding: if the first import is interrupted between two submodules, the next one succeeds without any exception, and the
classes of the submodules before the interruption cannot be found. -/
theorem C109_retry_fails (hp : p.Sound h) (hwalk : p.walk.Nodup) (a b : List String) (m : String) (hab : p.walk = a ++ m :: b) (e : PyErr) :
    ∃ s s', p.Import true .init s (.error e) ∧ p.Import false s s' (.ok ()) ∧ p.Session true s' ∧
      ∀ m' ∈ a, ∀ c, p.Declares m' c → ∀ k, IsKey h c k → s'.dico.lookup k = none := by
  obtain ⟨s1, r, hx⟩ := exec_exists hp.closed _ (a.map .imp) { ImportState.init with package := true, dico := [] }
    (fun x hx => by rw [hab]; simp at hx; simp [hx]) le_rfl
  have ha : a.Nodup := by rw [hab] at hwalk; exact hwalk.of_append_left
  obtain rfl := exec_clean hp hx (ha.map fun a b h => by cases h; rfl) (by simp) (by simp)
    (fun x hx => by rw [hab]; simp at hx; simp [hx]) fun _ _ _ _ _ _ _ => rfl
  have hmain : p.Exec true p.main { ImportState.init with package := true, dico := [] } s1 (.error e) := by
    rw [Package.main, hab, List.map_append, List.map_cons]
    exact exec_append (exec_faults hx) rfl (.fault rfl)
  have himp : p.Import true .init { s1 with package := false } (.error e) := .loadErr rfl hmain
  obtain ⟨s', hs'⟩ := C109_import_ends hp hwalk { s1 with package := false }
  refine ⟨_, s', himp, hs', ?_, fun m' hm' c hc k hk => ?_⟩
  · refine .import (.import .start himp) (r := .ok ()) ?_
    cases hs' with
    | found h0 => cases h0
    | load h0 hx => exact .load h0 (exec_faults hx)
  · exact C109_lost hp rfl hs' m' ((exec_ok hp.registers hx rfl).1 m' (by simpa using hm')) c hc k hk

/-! ## `qmat.qdelta` -/

/-- The class statements of a submodule. -/
def declared (m : String) : List ℕ := (qdeltaPackage.body m).filterMap fun st => match st with | .reg c => some c | .imp _ => none

theorem declares_iff (m : String) (c : ℕ) : qdeltaPackage.Declares m c ↔ c ∈ declared m := by
  unfold Package.Declares declared
  rw [List.mem_filterMap]
  constructor
  · exact fun h => ⟨_, h, rfl⟩
  · rintro ⟨st, h1, h2⟩
    cases st with
    | reg c' => cases h2; exact h1
    | imp m => cases h2

theorem declared_cases {m : String} {c : ℕ} (h : c ∈ declared m) : m ∈ qdeltaPackage.walk ∧ 4 ≤ c ∧ c < 30 := by
  by_cases h1 : m = "algebraic"
  · subst h1
    have : ∀ c ∈ declared "algebraic", "algebraic" ∈ qdeltaPackage.walk ∧ 4 ≤ c ∧ c < 30 := by decide +kernel
    exact this c h
  by_cases h2 : m = "diag"
  · subst h2
    have : ∀ c ∈ declared "diag", "diag" ∈ qdeltaPackage.walk ∧ 4 ≤ c ∧ c < 30 := by decide +kernel
    exact this c h
  by_cases h3 : m = "timestepping"
  · subst h3
    have : ∀ c ∈ declared "timestepping", "timestepping" ∈ qdeltaPackage.walk ∧ 4 ≤ c ∧ c < 30 := by decide +kernel
    exact this c h
  · simp [declared, qdeltaPackage, h1, h2, h3] at h

/-- C109: the submodules of `qmat.qdelta` satisfy what the theorems assume. -/
theorem C109_qdelta_sound : qdeltaPackage.Sound qdeltaHeap where
  registers c d := (registerQDelta_stores qdeltaHeap c d).2
  once m := by
    unfold qdeltaPackage
    simp only
    split_ifs <;> decide +kernel
  one m m' c h1 h2 := by
    rw [declares_iff] at h1 h2
    have : ∀ m ∈ qdeltaPackage.walk, ∀ m' ∈ qdeltaPackage.walk, ∀ c ∈ declared m, c ∈ declared m' → m = m' := by decide +kernel
    exact this m (declared_cases h1).1 m' (declared_cases h2).1 c h1 h2
  keys m m' c c' k h1 h2 := by
    rw [declares_iff] at h1 h2
    rintro ⟨ks, hks, hk⟩ ⟨ks', hks', hk'⟩
    have : ∀ c ∈ List.range' 4 26, ∀ c' ∈ List.range' 4 26, ∀ k ∈ (classKeys qdeltaHeap c).getD [],
        k ∈ (classKeys qdeltaHeap c').getD [] → c = c' := by decide +kernel
    obtain ⟨-, a1, a2⟩ := declared_cases h1
    obtain ⟨-, b1, b2⟩ := declared_cases h2
    exact this c (by simp; omega) c' (by simp; omega) k (by rw [hks]; exact hk) (by rw [hks']; exact hk')
  accepts m c d ks h1 hks hf := by
    rw [declares_iff] at h1
    obtain ⟨-, a1, a2⟩ := declared_cases h1
    have : ∀ c ∈ List.range' 4 26, (registerQDelta qdeltaHeap c []).2.2 = .ok () := by decide +kernel
    obtain ⟨e1, e2, -⟩ := (C68_qdelta qdeltaHeap c []).1.1 (this c (by simp; omega))
    exact (C68_qdelta qdeltaHeap c d).1.2 ⟨e1, e2, ks, hks, hf⟩
  hasKeys m c h1 := by
    rw [declares_iff] at h1
    obtain ⟨-, a1, a2⟩ := declared_cases h1
    have : ∀ c ∈ List.range' 4 26, (classKeys qdeltaHeap c).isSome ∧ ((classKeys qdeltaHeap c).getD []).Nodup := by decide +kernel
    obtain ⟨e1, e2⟩ := this c (by simp; omega)
    obtain ⟨ks, hks⟩ := Option.isSome_iff_exists.1 e1
    rw [hks] at e2
    exact ⟨ks, hks, e2⟩
  closed m m' hm := by
    have : ∀ m ∈ qdeltaPackage.walk, ∀ st ∈ qdeltaPackage.body m, ∀ m', st = .imp m' → m' ∈ qdeltaPackage.walk := by
      intro m hm st hst m' e
      subst e
      revert hst
      fin_cases hm <;> simp [qdeltaPackage]
      rintro rfl; simp
    by_cases hw : m ∈ qdeltaPackage.walk
    · exact this m hw _ hm m' rfl
    · simp [qdeltaPackage] at hw hm
      simp [hw] at hm

theorem qdelta_walk : qdeltaPackage.walk.Nodup := by decide +kernel

/-- The classes of this model and those of `Model/QDeltaGen`. -/
theorem qdelta_classes (ext : ExternalNum) : (qDeltaClasses ext).map (fun c => c.name :: c.aliases) =
    (List.range' 4 26).map fun c => (classKeys qdeltaHeap c).getD [] := by
  have e : (List.range' 4 26).map (fun c => (classKeys qdeltaHeap c).getD []) = [["PIC", "Picard"], ["Exact", "EXACT"], ["LU"], ["LU2"],
      ["QPar", "Qpar", "Qdiag"], ["GS", "GaussSeidel"], ["LDU"], ["MIN", "MIN-Speck"], ["MIN3", "Magic_Numbers"], ["MIN_VDHS", "VDHS"],
      ["MIN_SR_NS", "MIN-SR-NS", "MIN_GT"], ["MIN_SR_S", "MIN-SR-S"], ["MIN_SR_FLEX", "MIN-SR-FLEX"], ["Jumper", "JUMPER", "FB"],
      ["FlexJumper", "FLEX-JUMPER", "FB2"], ["DNODES", "DNODES-1"], ["DNODES2", "DNODES-2"], ["DNODES3", "DNODES-3"], ["DNODES4", "DNODES-4"],
      ["DNODES5", "DNODES-5"], ["BE", "IE"], ["FE", "EE"], ["TRAP", "CN"], ["BEPAR", "IEpar"], ["TRAPAR"], ["SOE", "LeapFrog", "LF"]] := by
    decide +kernel
  rw [e]
  rfl

/-- The package with its submodules found in another order. -/
theorem qdelta_order {w : List String} (hw : w.Perm qdeltaPackage.walk) : ({ qdeltaPackage with walk := w } : Package).Sound qdeltaHeap where
  registers := C109_qdelta_sound.registers
  once := C109_qdelta_sound.once
  one := C109_qdelta_sound.one
  keys := C109_qdelta_sound.keys
  accepts := C109_qdelta_sound.accepts
  hasKeys := C109_qdelta_sound.hasKeys
  closed m m' hm := hw.mem_iff.2 (C109_qdelta_sound.closed m m' hm)

/-- C109: the first successful import of `qmat.qdelta`, in whatever order the file system lists the submodules, gives a registry in which
every name leads to the class of `Model/QDeltaGen` of this name or alias, and no other name leads to a class. -/
theorem C109_qdelta (ext : ExternalNum) {w : List String} (hw : w.Perm qdeltaPackage.walk) {s' : ImportState}
    (hi : ({ qdeltaPackage with walk := w } : Package).Import faults .init s' (.ok ())) (k : String) :
    (s'.dico.lookup k).map (fun c => (qdeltaHeap c).name) = (QDELTA_GENERATORS ext k).map QDClass.name := by
  have hk := fun c => C109_first (qdelta_order hw) hi k c
  have hlen : (qDeltaClasses ext).length = 26 := by
    have := congrArg List.length (qdelta_classes ext)
    simpa using this
  have hcls : ∀ i (hi : i < 26), (classKeys qdeltaHeap (4 + i)) =
      some ((qDeltaClasses ext)[i].name :: (qDeltaClasses ext)[i].aliases) := by
    intro i hi
    have h1 := congrArg (fun l => l[i]?) (qdelta_classes ext)
    simp only [List.getElem?_map, List.getElem?_eq_getElem (hlen ▸ hi : i < (qDeltaClasses ext).length)] at h1
    rw [List.getElem?_eq_getElem (by simpa using hi)] at h1
    simp only [Option.map_some, List.getElem_range', one_mul, Option.some.injEq] at h1
    have h2 : ∀ c ∈ List.range' 4 26, (classKeys qdeltaHeap c).isSome := by decide +kernel
    obtain ⟨ks, hks⟩ := Option.isSome_iff_exists.1 (h2 (4 + i) (by simp; omega))
    rw [hks] at h1 ⊢
    exact congrArg some h1.symm
  have hdecl : ∀ c ∈ List.range' 4 26, ∃ m ∈ qdeltaPackage.walk, c ∈ declared m := by decide +kernel
  have hname : ∀ c ∈ List.range' 4 26, ((classKeys qdeltaHeap c).getD []).head? = some (qdeltaHeap c).name := by decide +kernel
  rcases hq : QDELTA_GENERATORS ext k with _ | cls
  · rcases hl : s'.dico.lookup k with _ | c
    · rfl
    · obtain ⟨m, -, h1, ks, hks, hkk⟩ := (hk c).1 hl
      obtain ⟨-, a1, a2⟩ := declared_cases ((declares_iff m c).1 h1)
      obtain ⟨i, rfl⟩ : ∃ i, c = 4 + i := ⟨c - 4, by omega⟩
      rw [hcls i (by omega)] at hks
      cases hks
      have := List.find?_eq_none.1 hq (qDeltaClasses ext)[i] (List.getElem_mem _)
      rw [List.mem_cons] at hkk
      simp only [decide_eq_true_eq] at this
      exact absurd hkk this
  · have hmem := List.mem_of_find?_eq_some hq
    have hkey := List.find?_some hq
    simp only [decide_eq_true_eq] at hkey
    obtain ⟨i, hi', rfl⟩ := List.getElem_of_mem hmem
    have hi26 : i < 26 := hlen ▸ hi'
    obtain ⟨m, hm, hmc⟩ := hdecl (4 + i) (by simp; omega)
    have hl := (hk (4 + i)).2 ⟨m, hw.mem_iff.2 hm, (declares_iff m _).2 hmc, _, hcls i hi26, List.mem_cons.2 hkey⟩
    have hn := hname (4 + i) (by simp; omega)
    rw [hcls i hi26] at hn
    simp only [Option.getD_some, List.head?_cons, Option.some.injEq] at hn
    rw [hl]
    exact congrArg some hn.symm

/-- C109, instance: the import of `qmat.qdelta` ends, and finds `"IE"`. -/
example (ext : ExternalNum) : ∃ s', qdeltaPackage.Import false .init s' (.ok ()) ∧
    (s'.dico.lookup "IE").map (fun c => (qdeltaHeap c).name) = some "BE" := by
  obtain ⟨s', hs'⟩ := C109_import_ends C109_qdelta_sound qdelta_walk .init
  refine ⟨s', hs', ?_⟩
  rw [C109_qdelta ext (List.Perm.refl _) hs']
  rw [C65_qdelta_lookup ext (classTime "BE" ["IE"] (fun g => .ok g.computeBE) fun _ => 0) (by simp [qDeltaClasses]) "IE" (Or.inr (by simp [classTime]))]
  rfl

theorem lu_declared : qdeltaPackage.Declares "algebraic" 6 ∧ IsKey qdeltaHeap 6 "LU" :=
  ⟨(declares_iff _ _).2 (by decide +kernel), ["LU"], by decide +kernel, by simp⟩

theorem be_declared : qdeltaPackage.Declares "timestepping" 24 ∧ IsKey qdeltaHeap 24 "IE" :=
  ⟨(declares_iff _ _).2 (by decide +kernel), ["BE", "IE"], by decide +kernel, by simp⟩

/-- C109, finding: the import of `qmat.qdelta` is interrupted before `timestepping`; the next import raises nothing, and afterwards `"LU"` is
not in the registry, neither is any class of `algebraic` and `diag`. -/
theorem C109_qdelta_retry_fails (e : PyErr) : ∃ s s', qdeltaPackage.Import true .init s (.error e) ∧ qdeltaPackage.Import false s s' (.ok ()) ∧
    qdeltaPackage.Session true s' ∧ s'.dico.lookup "LU" = none := by
  obtain ⟨s, s', h1, h2, h3, h4⟩ := C109_retry_fails C109_qdelta_sound qdelta_walk ["algebraic", "diag", "mincoeffs"] [] "timestepping" rfl e
  exact ⟨s, s', h1, h2, h3, h4 "algebraic" (by simp) 6 lu_declared.1 "LU" lu_declared.2⟩

/-- C109, instance of the remaining statements: after the first import a reload of `timestepping` raises, a reload of the package
empties the registry, and a reload of `timestepping` after that registers its classes again. -/
example : ∃ s, qdeltaPackage.Session false s ∧ (∀ s' r, qdeltaPackage.ReloadModule false "timestepping" s s' r → r ≠ .ok () ∧ s' = s) ∧
    ∀ s1 r, qdeltaPackage.Reload false s s1 r → s1.dico = [] ∧
      ∀ s2 r2, qdeltaPackage.ReloadModule false "timestepping" s1 s2 r2 → r2 = .ok () ∧ s2.dico.lookup "IE" = some 24 := by
  obtain ⟨s, hs⟩ := C109_import_ends C109_qdelta_sound qdelta_walk .init
  have hses : qdeltaPackage.Session false s := .import .start hs
  refine ⟨s, hses, fun s' r hr => ?_, fun s1 r hr => ?_⟩
  · refine C109_reload_module C109_qdelta_sound.registers (c := 24) (l := (List.range' 25 5).map .reg) (by decide +kernel) ?_ hr
    have hn : (qdeltaHeap 24).name = "BE" := by decide +kernel
    rw [hn, (C109_first C109_qdelta_sound hs "BE" 24).2 ⟨"timestepping", by decide +kernel, be_declared.1, ["BE", "IE"], by decide +kernel, by simp⟩]
    simp
  · have h1 := C109_reload hses hr
    refine ⟨h1, fun s2 r2 hr2 => ?_⟩
    obtain ⟨h2, h3⟩ := C109_repair C109_qdelta_sound (.reload hses hr) (fun c _ k _ => by rw [h1]; rfl) hr2
    exact ⟨h2, (h3 "IE" 24).2 (Or.inr be_declared)⟩

/-- C109, instance of `C109_interrupted`. -/
example (e : PyErr) : ∃ s, qdeltaPackage.Import true .init s (.error e) ∧ s.package = false := by
  obtain ⟨s, -, h1, -⟩ := C109_qdelta_retry_fails e
  exact ⟨s, h1, (C109_interrupted C109_qdelta_sound.registers h1).1⟩

/-! ## `qmat.qcoeff` -/

/-- The class statements of a submodule of `qmat.qcoeff`. -/
def declaredQ (m : String) : List ℕ := (qcoeffPackage.body m).filterMap fun st => match st with | .reg c => some c | .imp _ => none

theorem declaresQ_iff (m : String) (c : ℕ) : qcoeffPackage.Declares m c ↔ c ∈ declaredQ m := by
  unfold Package.Declares declaredQ
  rw [List.mem_filterMap]
  constructor
  · exact fun h => ⟨_, h, rfl⟩
  · rintro ⟨st, h1, h2⟩
    cases st with
    | reg c' => cases h2; exact h1
    | imp m => cases h2

theorem declaredQ_cases {m : String} {c : ℕ} (h : c ∈ declaredQ m) : m ∈ qcoeffPackage.walk ∧ c ∈ List.range' 3 39 := by
  by_cases h1 : m = "butcher"
  · subst h1
    have : ∀ c ∈ declaredQ "butcher", "butcher" ∈ qcoeffPackage.walk ∧ c ∈ List.range' 3 39 := by decide +kernel
    exact this c h
  by_cases h2 : m = "collocation"
  · subst h2
    have : ∀ c ∈ declaredQ "collocation", "collocation" ∈ qcoeffPackage.walk ∧ c ∈ List.range' 3 39 := by decide +kernel
    exact this c h
  · simp [declaredQ, qcoeffPackage, h1, h2] at h

/-- The keys of the classes of `qmat.qcoeff`. -/
theorem qcoeff_keys : (List.range' 3 39).map (fun c => classKeys qcoeffHeap c) =
    some ["Collocation", "coll"] :: Tables.rkSchemes.map fun T => some (T.name :: T.aliases) := by decide +kernel

/-- C109: the submodules of `qmat.qcoeff` satisfy what the theorems assume. -/
theorem C109_qcoeff_sound : qcoeffPackage.Sound qcoeffHeap where
  registers c d := registerQ_stores qcoeffHeap c d
  once m := by
    unfold qcoeffPackage
    simp only
    split_ifs <;> decide +kernel
  one m m' c h1 h2 := by
    rw [declaresQ_iff] at h1 h2
    have : ∀ m ∈ qcoeffPackage.walk, ∀ m' ∈ qcoeffPackage.walk, ∀ c ∈ declaredQ m, c ∈ declaredQ m' → m = m' := by decide +kernel
    exact this m (declaredQ_cases h1).1 m' (declaredQ_cases h2).1 c h1 h2
  keys m m' c c' k h1 h2 := by
    rw [declaresQ_iff] at h1 h2
    rintro ⟨ks, hks, hk⟩ ⟨ks', hks', hk'⟩
    have : ∀ c ∈ List.range' 3 39, ∀ c' ∈ List.range' 3 39, ∀ k ∈ (classKeys qcoeffHeap c).getD [],
        k ∈ (classKeys qcoeffHeap c').getD [] → c = c' := by decide +kernel
    exact this c (declaredQ_cases h1).2 c' (declaredQ_cases h2).2 k (by rw [hks]; exact hk) (by rw [hks']; exact hk')
  accepts m c d ks h1 hks hf := by
    rw [declaresQ_iff] at h1
    have : ∀ c ∈ List.range' 3 39, checkQGenerator qcoeffHeap c = .ok () := by decide +kernel
    change (registerQ qcoeffHeap c d).2 = _
    unfold registerQ
    rw [this c (declaredQ_cases h1).2]
    exact (storeClass_ok_iff qcoeffHeap c d).2 ⟨ks, hks, hf⟩
  hasKeys m c h1 := by
    rw [declaresQ_iff] at h1
    have : ∀ c ∈ List.range' 3 39, (classKeys qcoeffHeap c).isSome ∧ ((classKeys qcoeffHeap c).getD []).Nodup := by decide +kernel
    obtain ⟨e1, e2⟩ := this c (declaredQ_cases h1).2
    obtain ⟨ks, hks⟩ := Option.isSome_iff_exists.1 e1
    rw [hks] at e2
    exact ⟨ks, hks, e2⟩
  closed m m' hm := by
    exfalso
    unfold qcoeffPackage at hm
    simp only at hm
    split_ifs at hm <;> simp at hm

/-- C109: the first successful import of `qmat.qcoeff`: what is found under a name is `Collocation` for its two names, and otherwise the
Runge-Kutta class of this name or alias. -/
theorem C109_qcoeff {s' : ImportState} (hi : qcoeffPackage.Import faults .init s' (.ok ())) (k : String) :
    (s'.dico.lookup k = some 3 ↔ k = "Collocation" ∨ k = "coll") ∧
    (∀ i (hi : i < Tables.rkSchemes.length), s'.dico.lookup k = some (4 + i) ↔ k = Tables.rkSchemes[i].name ∨ k ∈ Tables.rkSchemes[i].aliases) ∧
    (∀ c, s'.dico.lookup k = some c → c = 3 ∨ ∃ i < Tables.rkSchemes.length, c = 4 + i) := by
  have hk := fun c => C109_first C109_qcoeff_sound hi k c
  have hlen : Tables.rkSchemes.length = 38 := by decide +kernel
  have h3 : classKeys qcoeffHeap 3 = some ["Collocation", "coll"] := by decide +kernel
  have hcls : ∀ i (hi : i < Tables.rkSchemes.length), classKeys qcoeffHeap (4 + i) = some (Tables.rkSchemes[i].name :: Tables.rkSchemes[i].aliases) := by
    intro i hi
    have h1 := congrArg (fun l => l[i + 1]?) qcoeff_keys
    simp only [List.getElem?_map, List.getElem?_cons_succ, List.getElem?_eq_getElem hi, Option.map_some] at h1
    rw [List.getElem?_eq_getElem (by simp; omega)] at h1
    simp only [Option.map_some, List.getElem_range', one_mul, Option.some.injEq] at h1
    rw [← h1]
    congr 1
    omega
  have hd : ∀ c ∈ List.range' 3 39, ∃ m ∈ qcoeffPackage.walk, c ∈ declaredQ m := by decide +kernel
  refine ⟨?_, fun i hi => ?_, fun c hc => ?_⟩
  · rw [hk]
    constructor
    · rintro ⟨m, -, -, ks, hks, hkk⟩
      rw [h3] at hks; cases hks
      simpa using hkk
    · intro h
      obtain ⟨m, hm, hmc⟩ := hd 3 (by simp)
      exact ⟨m, hm, (declaresQ_iff m 3).2 hmc, _, h3, by simpa using h⟩
  · rw [hk]
    constructor
    · rintro ⟨m, -, -, ks, hks, hkk⟩
      rw [hcls i hi] at hks; cases hks
      exact List.mem_cons.1 hkk
    · intro h
      obtain ⟨m, hm, hmc⟩ := hd (4 + i) (by simp; omega)
      exact ⟨m, hm, (declaresQ_iff m _).2 hmc, _, hcls i hi, List.mem_cons.2 h⟩
  · obtain ⟨m, -, h1, -⟩ := (hk c).1 hc
    have := (declaredQ_cases ((declaresQ_iff m c).1 h1)).2
    simp at this
    by_cases h3 : c = 3
    · exact Or.inl h3
    · exact Or.inr ⟨c - 4, by omega, by omega⟩

/-- C109, instance: the import of `qmat.qcoeff` ends and registers `"coll"`. -/
example : ∃ s', qcoeffPackage.Import false .init s' (.ok ()) ∧ s'.dico.lookup "coll" = some 3 := by
  obtain ⟨s', hs'⟩ := C109_import_ends C109_qcoeff_sound (by decide +kernel) .init
  exact ⟨s', hs', (C109_qcoeff hs' "coll").1.2 (Or.inr rfl)⟩

/-- C109, finding: the import of `qmat.qcoeff` is interrupted before `collocation`; the next import raises nothing, and afterwards no
Runge-Kutta class is in the registry. -/
theorem C109_qcoeff_retry_fails (e : PyErr) : ∃ s s', qcoeffPackage.Import true .init s (.error e) ∧ qcoeffPackage.Import false s s' (.ok ()) ∧
    ∀ T ∈ Tables.rkSchemes, s'.dico.lookup T.name = none := by
  obtain ⟨s, s', h1, h2, -, h4⟩ := C109_retry_fails C109_qcoeff_sound (by decide +kernel) ["butcher"] [] "collocation" rfl e
  refine ⟨s, s', h1, h2, fun T hT => ?_⟩
  obtain ⟨i, hi, rfl⟩ := List.getElem_of_mem hT
  have hlen : Tables.rkSchemes.length = 38 := by decide +kernel
  have hd : ∀ i ∈ List.range 38, 4 + i ∈ declaredQ "butcher" := by decide +kernel
  have hk : ∀ i ∈ List.range 38, classKeys qcoeffHeap (4 + i) = (Tables.rkSchemes[i]?).map fun T => T.name :: T.aliases := by decide +kernel
  have hki := hk i (by simp; omega)
  rw [List.getElem?_eq_getElem hi] at hki
  exact h4 "butcher" (by simp) (4 + i) ((declaresQ_iff _ _).2 (hd i (by simp; omega))) _ ⟨_, hki, List.mem_cons_self⟩

end QMat.Registry
