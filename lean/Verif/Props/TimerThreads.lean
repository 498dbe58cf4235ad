import Verif.Model.TimerThreads
import Mathlib.Tactic.Linarith
import Mathlib.Tactic.NormNum
import Mathlib.Tactic.FieldSimp

/-!
# A `Timer` used by several threads and interrupted anywhere (C121)
-/

namespace QMat

/-- A difference of a clock reading of a `stop` and one of a `start`. -/
def ClockDiff (log : List TmEvent) (d : ℝ) : Prop :=
  ∃ t₁ s t₂ n, .clock t₁ .start s ∈ log ∧ .clock t₂ .stop n ∈ log ∧ d = n - s

/-- Such a difference divided by the scale some number of times. -/
def ScaledDiff (scale : ℝ) (log : List TmEvent) (w : ℝ) : Prop := ∃ d k, ClockDiff log d ∧ w = d / scale ^ (k : ℕ)

theorem ClockDiff.mono {l : List TmEvent} {d : ℝ} (h : ClockDiff l d) (e : TmEvent) : ClockDiff (l ++ [e]) d := by
  obtain ⟨t₁, s, t₂, n, h1, h2, h3⟩ := h
  exact ⟨t₁, s, t₂, n, List.mem_append_left _ h1, List.mem_append_left _ h2, h3⟩

theorem ScaledDiff.mono {scale : ℝ} {l : List TmEvent} {d : ℝ} (h : ScaledDiff scale l d) (e : TmEvent) :
    ScaledDiff scale (l ++ [e]) d := by
  obtain ⟨d, k, h1, h2⟩ := h
  exact ⟨d, k, h1.mono e, h2⟩

/-- What holds of the place of a thread in every reachable state. -/
def TmPcOk (scale : ℝ) (log : List TmEvent) (t : ℕ) : TmPc → Prop
  | .startStore s => .clock t .start s ∈ log
  | .stopLoad n => .clock t .stop n ∈ log
  | .stopStore d => ScaledDiff scale log d
  | .stopScale w => ScaledDiff scale log w
  | _ => True

theorem TmPcOk.mono {scale : ℝ} {l : List TmEvent} {t : ℕ} {pc : TmPc} (h : TmPcOk scale l t pc) (e : TmEvent) :
    TmPcOk scale (l ++ [e]) t pc := by
  cases pc <;> first | trivial | exact List.mem_append_left _ h | exact ScaledDiff.mono h e

/-- The invariant of all schedules. -/
structure TmInv (scale : ℝ) (c : TmConfig) : Prop where
  start : ∀ s, c.tStart = some s → ∃ t, .clock t .start s ∈ c.log
  wall : ∀ w, c.tWall = some w → ScaledDiff scale c.log w
  pcs : ∀ t, TmPcOk scale c.log t (c.threads t)
  ended : ∀ t w, .stopped t (.ok w) ∈ c.log → ScaledDiff scale c.log w

theorem TmInv.goto {scale : ℝ} {c : TmConfig} (h : TmInv scale c) (t : ℕ) (pc : TmPc) (hp : TmPcOk scale c.log t pc) :
    TmInv scale (c.goto t pc) := by
  refine ⟨h.start, h.wall, fun t' => ?_, h.ended⟩
  by_cases ht : t' = t
  · subst ht
    simpa [TmConfig.goto] using hp
  · simpa [TmConfig.goto, ht] using h.pcs t'

theorem TmInv.note {scale : ℝ} {c : TmConfig} (h : TmInv scale c) (e : TmEvent)
    (he : ∀ t w, e = .stopped t (.ok w) → ScaledDiff scale c.log w) : TmInv scale (c.note e) := by
  refine ⟨fun s hs => ?_, fun w hw => (h.wall w hw).mono e, fun t => (h.pcs t).mono e, fun t w hw => ?_⟩
  · obtain ⟨t, ht⟩ := h.start s hs
    exact ⟨t, List.mem_append_left _ ht⟩
  · rcases List.mem_append.1 hw with hw | hw
    · exact (h.ended t w hw).mono e
    · exact (he t w (List.mem_singleton.1 hw).symm).mono e

theorem TmInv.setStart {scale : ℝ} {c : TmConfig} (h : TmInv scale c) (s : ℝ) (t : ℕ) (ht : .clock t .start s ∈ c.log) :
    TmInv scale { c with tStart := some s } :=
  ⟨fun s' hs => ⟨t, by cases hs; exact ht⟩, h.wall, h.pcs, h.ended⟩

theorem TmInv.setWall {scale : ℝ} {c : TmConfig} (h : TmInv scale c) (w : ℝ) (hw : ScaledDiff scale c.log w) :
    TmInv scale { c with tWall := some w } :=
  ⟨h.start, fun w' hw' => by cases hw'; exact hw, h.pcs, h.ended⟩

theorem TmInv.advance {scale : ℝ} {c : TmConfig} (h : TmInv scale c) (t : ℕ) (now : ℝ) :
    TmInv scale (c.advance scale t now) := by
  have hpc := h.pcs t
  unfold TmConfig.advance
  cases hc : c.threads t <;> rw [hc] at hpc <;> simp only
  case idle => exact h
  case startClock =>
    have h1 : TmInv scale (c.note (.clock t .start now)) := h.note _ (by simp)
    exact h1.goto t (.startStore now) (List.mem_append_right _ (List.mem_singleton.2 rfl))
  case startStore s => exact (h.goto t .idle trivial).setStart s t hpc
  case stopClock =>
    have h1 : TmInv scale (c.note (.clock t .stop now)) := h.note _ (by simp)
    exact h1.goto t (.stopLoad now) (List.mem_append_right _ (List.mem_singleton.2 rfl))
  case stopLoad n =>
    cases hs : c.tStart with
    | none => exact (h.goto t .idle trivial).note _ (by simp)
    | some s =>
      obtain ⟨t₁, h1⟩ := h.start s hs
      exact h.goto t _ ⟨n - s, 0, ⟨t₁, s, t, n, h1, hpc, rfl⟩, by simp⟩
  case stopStore d => exact (h.goto t .stopReload trivial).setWall d hpc
  case stopReload =>
    cases hw : c.tWall with
    | none => exact (h.goto t .idle trivial).note _ (by simp)
    | some w =>
      simp only
      split
      · exact (h.goto t .idle trivial).note _ (by simp)
      · obtain ⟨d, k, hd, rfl⟩ := h.wall w hw
        exact h.goto t _ ⟨d, k + 1, hd, by rw [pow_succ, div_div]⟩
  case stopScale w => exact (h.goto t .stopReport trivial).setWall w hpc
  case stopReport =>
    cases hw : c.tWall with
    | none => exact (h.goto t .idle trivial).note _ (by simp)
    | some w =>
      refine (h.goto t .idle trivial).note _ fun t' w' he => ?_
      cases he
      exact h.wall w hw

/-- What the begin of a call does. -/
theorem TmConfig.act_begin (scale : ℝ) (c : TmConfig) (t : ℕ) (op : TmOp) : c.act scale (.begin t op) = c ∨
    (c.threads t = .idle ∧ c.act scale (.begin t op) = c.goto t (match op with | .start => .startClock | .stop => .stopClock)) := by
  unfold TmConfig.act
  cases hc : c.threads t
  case idle => exact Or.inr ⟨rfl, by simp only [hc]; cases op <;> rfl⟩
  all_goals exact Or.inl (by simp only [hc])

theorem TmInv.act {scale : ℝ} {c : TmConfig} (h : TmInv scale c) (a : TmAct) : TmInv scale (c.act scale a) := by
  cases a with
  | begin t op =>
    rcases c.act_begin scale t op with e | ⟨-, e⟩
    · rw [e]; exact h
    · rw [e]
      cases op
      · exact h.goto t .startClock trivial
      · exact h.goto t .stopClock trivial
  | advance t now => exact h.advance t now
  | interrupt t => exact h.goto t .idle trivial

theorem TmInv.foldl {scale : ℝ} (acts : List TmAct) {c : TmConfig} (h : TmInv scale c) :
    TmInv scale (acts.foldl (TmConfig.act scale) c) := by
  induction acts generalizing c with
  | nil => exact h
  | cons a l ih => exact ih (h.act a)

theorem tmInv_schedule (scale : ℝ) (acts : List TmAct) : TmInv scale (tmSchedule scale acts) :=
  TmInv.foldl acts ⟨by simp [TmConfig.init], by simp [TmConfig.init], fun _ => trivial, by simp [TmConfig.init]⟩

/-- C121 (unscaled): with the default scale, whatever the threads do and wherever they are interrupted, the time that
a `stop` reports, and `tWall`, are a clock reading of a `stop` minus a clock reading of a `start`. -/
theorem C121_unscaled (acts : List TmAct) :
    (∀ t w, .stopped t (.ok w) ∈ (tmSchedule 1 acts).log → ClockDiff (tmSchedule 1 acts).log w) ∧
    ∀ w, (tmSchedule 1 acts).tWall = some w → ClockDiff (tmSchedule 1 acts).log w := by
  have h := tmInv_schedule 1 acts
  have key : ∀ w, ScaledDiff 1 (tmSchedule 1 acts).log w → ClockDiff (tmSchedule 1 acts).log w := by
    rintro w ⟨d, k, hd, rfl⟩
    simpa using hd
  exact ⟨fun t w hw => key w (h.ended t w hw), fun w hw => key w (h.wall w hw)⟩

/-- The steps of one thread from idle: `start` with the clock at `a`, `stop` with the clock at `b`. -/
def startStop (t : ℕ) (a b x : ℝ) : List TmAct :=
  [.begin t .start, .advance t a, .advance t x, .begin t .stop, .advance t b, .advance t x, .advance t x, .advance t x,
    .advance t x, .advance t x]

/-- C121 (recovery): after any schedule, with calls interrupted anywhere and other threads stopped in the middle of their
calls, `start` and `stop` by a thread that is not disturbed report the time between them over the scale and store it in `tWall`. -/
theorem C121_recovers (scale : ℝ) (hs : scale ≠ 0) (acts : List TmAct) (t : ℕ) (hidle : (tmSchedule scale acts).threads t = .idle)
    (a b x : ℝ) :
    (tmSchedule scale (acts ++ startStop t a b x)).log = (tmSchedule scale acts).log ++
      [.clock t .start a, .clock t .stop b, .stopped t (.ok ((b - a) / scale))] ∧
    (tmSchedule scale (acts ++ startStop t a b x)).tWall = some ((b - a) / scale) := by
  have e : tmSchedule scale (acts ++ startStop t a b x) = (startStop t a b x).foldl (TmConfig.act scale) (tmSchedule scale acts) := by
    unfold tmSchedule
    rw [List.foldl_append]
  rw [e]
  generalize tmSchedule scale acts = c at hidle
  simp [startStop, TmConfig.act, hidle, TmConfig.goto, TmConfig.advance, TmConfig.note, hs]

/-- The hypotheses are met: thread 0 is interrupted in the middle of its `stop`, before the division. -/
example : (tmSchedule 2 ([.begin 0 .start, .advance 0 0, .advance 0 0, .begin 0 .stop, .advance 0 6, .advance 0 6, .advance 0 6,
    .interrupt 0] ++ startStop 1 10 14 0)).tWall = some ((14 - 10) / 2) ∧
    (tmSchedule 2 [.begin 0 .start, .advance 0 0, .advance 0 0, .begin 0 .stop, .advance 0 6, .advance 0 6, .advance 0 6,
    .interrupt 0]).tWall = some 6 := by
  refine ⟨(C121_recovers 2 two_ne_zero _ 1 ?_ 10 14 0).2, ?_⟩ <;>
  simp [tmSchedule, TmConfig.init, TmConfig.act, TmConfig.goto, TmConfig.advance, TmConfig.note]

/-- A place in `stop`. -/
def TmPc.InStop : TmPc → Prop
  | .idle => False
  | .startClock => False
  | .startStore _ => False
  | _ => True

/-- An action that leaves a call of thread `t` alone: the other threads begin no `stop`, and nothing interrupts `t`. -/
def TmAct.Mild (t : ℕ) : TmAct → Prop
  | .begin t' op => t' = t ∨ op = .start
  | .advance _ _ => True
  | .interrupt t' => t' ≠ t

/-- How far thread `t` is in its `stop`, and what is then stored; `pre` is the record before the call. -/
inductive StopAt (scale : ℝ) (t : ℕ) (pre : List TmEvent) (c : TmConfig) : ℕ → Prop
  | clock (h : c.threads t = .stopClock) (hs : c.tStart.isSome) : StopAt scale t pre c 6
  | load (n : ℝ) (l) (h : c.threads t = .stopLoad n) (hs : c.tStart.isSome) (hl : c.log = pre ++ l) (hn : .clock t .stop n ∈ l) :
      StopAt scale t pre c 5
  | store (n s : ℝ) (l t₁) (h : c.threads t = .stopStore (n - s)) (hl : c.log = pre ++ l) (hn : .clock t .stop n ∈ l)
      (hs : .clock t₁ .start s ∈ c.log) : StopAt scale t pre c 4
  | reload (n s : ℝ) (l t₁) (h : c.threads t = .stopReload) (hw : c.tWall = some (n - s)) (hl : c.log = pre ++ l)
      (hn : .clock t .stop n ∈ l) (hs : .clock t₁ .start s ∈ c.log) : StopAt scale t pre c 3
  | scaled (n s : ℝ) (l t₁) (h : c.threads t = .stopScale ((n - s) / scale)) (hl : c.log = pre ++ l)
      (hn : .clock t .stop n ∈ l) (hs : .clock t₁ .start s ∈ c.log) : StopAt scale t pre c 2
  | report (n s : ℝ) (l t₁) (h : c.threads t = .stopReport) (hw : c.tWall = some ((n - s) / scale)) (hl : c.log = pre ++ l)
      (hn : .clock t .stop n ∈ l) (hs : .clock t₁ .start s ∈ c.log) : StopAt scale t pre c 1

/-- The call has ended with the right time. -/
def StopDone (scale : ℝ) (t : ℕ) (pre : List TmEvent) (c : TmConfig) : Prop :=
  ∃ l n s t₁, c.log = pre ++ l ∧ .clock t .stop n ∈ l ∧ .clock t₁ .start s ∈ c.log ∧ .stopped t (.ok ((n - s) / scale)) ∈ l

/-- The log only grows. -/
theorem TmConfig.act_log (scale : ℝ) (c : TmConfig) (a : TmAct) : ∃ l, (c.act scale a).log = c.log ++ l := by
  cases a with
  | begin t op =>
    refine ⟨[], ?_⟩
    rcases c.act_begin scale t op with e | ⟨-, e⟩ <;> rw [e] <;> simp [TmConfig.goto]
  | interrupt t => exact ⟨[], by simp [TmConfig.act, TmConfig.goto]⟩
  | advance t now =>
    change ∃ l, (c.advance scale t now).log = _
    unfold TmConfig.advance
    cases c.threads t <;> simp only <;> (try cases c.tStart) <;> (try cases c.tWall) <;> (try simp only) <;> (try split) <;>
      first | exact ⟨[], (List.append_nil _).symm⟩ | exact ⟨[_], rfl⟩

theorem StopDone.act {scale : ℝ} {t : ℕ} {pre : List TmEvent} {c : TmConfig} (h : StopDone scale t pre c) (a : TmAct) :
    StopDone scale t pre (c.act scale a) := by
  obtain ⟨l, n, s, t₁, h1, h2, h3, h4⟩ := h
  obtain ⟨l', hl'⟩ := c.act_log scale a
  refine ⟨l ++ l', n, s, t₁, by rw [hl', h1, List.append_assoc], List.mem_append_left _ h2, by rw [hl']; exact List.mem_append_left _ h3,
    List.mem_append_left _ h4⟩

/-- A step of another thread that is not in `stop`, or an action of the scheduler for it. -/
theorem other_frame (scale : ℝ) (t : ℕ) (c : TmConfig) (ho : ∀ t', t' ≠ t → ¬ (c.threads t').InStop) (a : TmAct) (ha : a.Mild t)
    (hna : ∀ now, a ≠ .advance t now) (hbusy : c.threads t ≠ .idle) :
    (c.act scale a).threads t = c.threads t ∧ (c.act scale a).tWall = c.tWall ∧
    (c.tStart.isSome → (c.act scale a).tStart.isSome) ∧ ∀ t', t' ≠ t → ¬ ((c.act scale a).threads t').InStop := by
  have upd : ∀ t' pc, t' ≠ t → ¬ pc.InStop → (c.goto t' pc).threads t = c.threads t ∧
      ∀ t'', t'' ≠ t → ¬ ((c.goto t' pc).threads t'').InStop := by
    intro t' pc ht' hp
    refine ⟨by simp [TmConfig.goto, ht'.symm], fun t'' ht'' => ?_⟩
    by_cases e : t'' = t'
    · subst e; simpa [TmConfig.goto] using hp
    · simpa [TmConfig.goto, e] using ho t'' ht''
  cases a with
  | begin t' op =>
    rcases c.act_begin scale t' op with e | ⟨hc, e⟩
    · rw [e]; exact ⟨rfl, rfl, id, ho⟩
    rw [e]
    have ht' : t' ≠ t := fun e => hbusy (e ▸ hc)
    rcases ha with e | rfl
    · exact absurd e ht'
    · obtain ⟨h1, h2⟩ := upd t' .startClock ht' id
      exact ⟨h1, rfl, id, h2⟩
  | interrupt t' =>
    obtain ⟨h1, h2⟩ := upd t' .idle ha id
    exact ⟨h1, rfl, id, h2⟩
  | advance t' now =>
    have ht' : t' ≠ t := fun e => hna now (e ▸ rfl)
    have h0 := ho t' ht'
    change (c.advance scale t' now).threads t = _ ∧ (c.advance scale t' now).tWall = _ ∧ (_ → (c.advance scale t' now).tStart.isSome) ∧
      ∀ t'', t'' ≠ t → ¬ ((c.advance scale t' now).threads t'').InStop
    unfold TmConfig.advance
    cases hc : c.threads t' <;> rw [hc] at h0 <;> simp only <;> first | exact absurd trivial h0 | skip
    · exact ⟨trivial, trivial, id, ho⟩
    · obtain ⟨h1, h2⟩ := upd t' (.startStore now) ht' id
      exact ⟨h1, rfl, id, h2⟩
    · obtain ⟨h1, h2⟩ := upd t' .idle ht' id
      exact ⟨h1, rfl, fun _ => rfl, h2⟩

theorem StopAt.busy {scale : ℝ} {t : ℕ} {pre : List TmEvent} {c : TmConfig} {k : ℕ} (h : StopAt scale t pre c k) :
    c.threads t ≠ .idle := by
  cases h <;> rename_i h <;> simp_all

/-- An action that is not a step of `t` keeps it where it is. -/
theorem StopAt.frame {scale : ℝ} {t : ℕ} {pre : List TmEvent} {c c' : TmConfig} {k : ℕ} (h : StopAt scale t pre c k)
    (h1 : c'.threads t = c.threads t) (h2 : c'.tWall = c.tWall) (h3 : c.tStart.isSome → c'.tStart.isSome)
    (h4 : ∃ l, c'.log = c.log ++ l) : StopAt scale t pre c' k := by
  obtain ⟨l', hl'⟩ := h4
  cases h with
  | clock h hs => exact .clock (h1.trans h) (h3 hs)
  | load n l h hs hl hn => exact .load n (l ++ l') (h1.trans h) (h3 hs) (by rw [hl', hl, List.append_assoc]) (List.mem_append_left _ hn)
  | store n s l t₁ h hl hn hs =>
    exact .store n s (l ++ l') t₁ (h1.trans h) (by rw [hl', hl, List.append_assoc]) (List.mem_append_left _ hn)
      (by rw [hl']; exact List.mem_append_left _ hs)
  | reload n s l t₁ h hw hl hn hs =>
    exact .reload n s (l ++ l') t₁ (h1.trans h) (h2.trans hw) (by rw [hl', hl, List.append_assoc]) (List.mem_append_left _ hn)
      (by rw [hl']; exact List.mem_append_left _ hs)
  | scaled n s l t₁ h hl hn hs =>
    exact .scaled n s (l ++ l') t₁ (h1.trans h) (by rw [hl', hl, List.append_assoc]) (List.mem_append_left _ hn)
      (by rw [hl']; exact List.mem_append_left _ hs)
  | report n s l t₁ h hw hl hn hs =>
    exact .report n s (l ++ l') t₁ (h1.trans h) (h2.trans hw) (by rw [hl', hl, List.append_assoc]) (List.mem_append_left _ hn)
      (by rw [hl']; exact List.mem_append_left _ hs)

/-- A step of `t` itself. -/
theorem StopAt.step {scale : ℝ} (hscale : scale ≠ 0) {t : ℕ} {pre l₀ : List TmEvent} {c : TmConfig} {k : ℕ} (hinv : TmInv scale c)
    (hpre : c.log = pre ++ l₀) (h : StopAt scale t pre c (k + 1)) (now : ℝ) :
    (k = 0 ∧ StopDone scale t pre (c.act scale (.advance t now))) ∨ StopAt scale t pre (c.act scale (.advance t now)) k := by
  change (k = 0 ∧ StopDone scale t pre (c.advance scale t now)) ∨ StopAt scale t pre (c.advance scale t now) k
  generalize hk : k + 1 = k' at h
  cases h with
  | clock h hs =>
    obtain rfl : k = 5 := by omega
    right
    rw [TmConfig.advance, h]
    exact .load now (l₀ ++ [.clock t .stop now]) (by simp [TmConfig.goto, TmConfig.note]) hs
      (by simp [TmConfig.goto, TmConfig.note, hpre]) (by simp)
  | load n l h hs hl hn =>
    obtain rfl : k = 4 := by omega
    right
    obtain ⟨s, hs'⟩ := Option.isSome_iff_exists.1 hs
    obtain ⟨t₁, h1⟩ := hinv.start s hs'
    rw [TmConfig.advance, h]
    simp only [hs']
    exact .store n s l t₁ (by simp [TmConfig.goto]) hl hn h1
  | store n s l t₁ h hl hn hs =>
    obtain rfl : k = 3 := by omega
    right
    rw [TmConfig.advance, h]
    exact .reload n s l t₁ (by simp [TmConfig.goto]) rfl hl hn hs
  | reload n s l t₁ h hw hl hn hs =>
    obtain rfl : k = 2 := by omega
    right
    rw [TmConfig.advance, h]
    simp only [hw, if_neg hscale]
    exact .scaled n s l t₁ (by simp [TmConfig.goto]) hl hn hs
  | scaled n s l t₁ h hl hn hs =>
    obtain rfl : k = 1 := by omega
    right
    rw [TmConfig.advance, h]
    exact .report n s l t₁ (by simp [TmConfig.goto]) rfl hl hn hs
  | report n s l t₁ h hw hl hn hs =>
    obtain rfl : k = 0 := by omega
    refine Or.inl ⟨rfl, ?_⟩
    rw [TmConfig.advance, h]
    simp only [hw]
    exact ⟨l ++ [.stopped t (.ok ((n - s) / scale))], n, s, t₁, by simp [TmConfig.goto, TmConfig.note, hl],
      List.mem_append_left _ hn, List.mem_append_left _ hs, by simp⟩

/-- Number of steps of a thread in a schedule. -/
noncomputable def tmCount (t : ℕ) (acts : List TmAct) : ℕ := by
  classical exact acts.countP fun a => decide (∃ now, a = .advance t now)

theorem stop_run {scale : ℝ} (hscale : scale ≠ 0) {t : ℕ} {pre : List TmEvent} (acts : List TmAct) :
    ∀ {c : TmConfig} {k : ℕ} {l₀ : List TmEvent}, TmInv scale c → c.log = pre ++ l₀ →
    (∀ t', t' ≠ t → ¬ (c.threads t').InStop) → (∀ a ∈ acts, a.Mild t) → StopAt scale t pre c k → k ≤ tmCount t acts →
    StopDone scale t pre (acts.foldl (TmConfig.act scale) c) := by
  induction acts with
  | nil =>
    intro c k l₀ _ _ _ _ hk hle
    have : k = 0 := by simpa [tmCount] using hle
    subst this
    cases hk
  | cons a acts ih =>
    intro c k l₀ hinv hpre ho hm hk hle
    have hdone : ∀ (l : List TmAct) {c : TmConfig}, StopDone scale t pre c → StopDone scale t pre (l.foldl (TmConfig.act scale) c) := by
      intro l
      induction l with
      | nil => intro c h; exact h
      | cons b l ih' => intro c h; exact ih' (h.act b)
    obtain ⟨l', hl'⟩ := c.act_log scale a
    have hpre' : (c.act scale a).log = pre ++ (l₀ ++ l') := by rw [hl', hpre, List.append_assoc]
    rw [List.foldl_cons]
    by_cases hadv : ∃ now, a = .advance t now
    · have hcnt : tmCount t (a :: acts) = tmCount t acts + 1 := by
        classical
        unfold tmCount
        rw [List.countP_cons_of_pos (by simpa using hadv)]
      obtain ⟨now, rfl⟩ := hadv
      obtain ⟨k, rfl⟩ : ∃ k', k = k' + 1 := by
        cases hk <;> exact ⟨_, rfl⟩
      rcases hk.step hscale hinv hpre now with ⟨-, hd⟩ | hk'
      · exact hdone acts hd
      · refine ih (hinv.act _) hpre' (fun t' ht' => ?_) (fun b hb => hm b (List.mem_cons_of_mem _ hb)) hk' (by omega)
        have : (c.act scale (.advance t now)).threads t' = c.threads t' := by
          change (c.advance scale t now).threads t' = _
          unfold TmConfig.advance
          cases c.threads t <;> simp only <;> (try cases c.tStart) <;> (try cases c.tWall) <;> (try simp only) <;> (try split) <;>
            simp [TmConfig.goto, TmConfig.note, ht']
        rw [this]
        exact ho t' ht'
    · have hcnt : tmCount t (a :: acts) = tmCount t acts := by
        classical
        unfold tmCount
        rw [List.countP_cons_of_neg (by simpa using hadv)]
      obtain ⟨f1, f2, f3, f4⟩ := other_frame scale t c ho a (hm a List.mem_cons_self) (fun now e => hadv ⟨now, e⟩) hk.busy
      exact ih (hinv.act _) hpre' f4 (fun b hb => hm b (List.mem_cons_of_mem _ hb)) (hk.frame f1 f2 f3 ⟨l', hl'⟩) (by omega)

/-- C121 (one `stop` at a time): a `stop` after a `start`, with no other `stop` under way or begun while it runs, ends after six steps
of its own, whatever `start` calls and interruptions of other threads come in between, and reports its own clock reading minus that of a
`start`, over the scale, once. -/
theorem C121_stop (scale : ℝ) (hs : scale ≠ 0) (acts : List TmAct) (t : ℕ) (hidle : (tmSchedule scale acts).threads t = .idle)
    (hstart : (tmSchedule scale acts).tStart.isSome) (ho : ∀ t', ¬ ((tmSchedule scale acts).threads t').InStop)
    (acts' : List TmAct) (hm : ∀ a ∈ acts', a.Mild t) (hn : 6 ≤ tmCount t acts') :
    ∃ l n s t₁, (tmSchedule scale (acts ++ .begin t .stop :: acts')).log = (tmSchedule scale acts).log ++ l ∧ .clock t .stop n ∈ l ∧
      .clock t₁ .start s ∈ (tmSchedule scale (acts ++ .begin t .stop :: acts')).log ∧ .stopped t (.ok ((n - s) / scale)) ∈ l := by
  have hinv := tmInv_schedule scale acts
  have e : tmSchedule scale (acts ++ .begin t .stop :: acts') = acts'.foldl (TmConfig.act scale) ((tmSchedule scale acts).goto t .stopClock) := by
    unfold tmSchedule at hidle ⊢
    rw [List.foldl_append, List.foldl_cons]
    congr 1
    simp only [TmConfig.act, hidle]
  rw [e]
  refine stop_run hs acts' (k := 6) (l₀ := []) (hinv.goto t .stopClock trivial) (by simp [TmConfig.goto]) (fun t' ht' => ?_) hm
    (.clock (by simp [TmConfig.goto]) hstart) hn
  simpa [TmConfig.goto, ht'] using ho t'

/-- The hypotheses are met: thread 1 calls `start` while thread 0 is in `stop`. -/
example : ∃ l n s t₁, (tmSchedule 3 ([.begin 0 .start, .advance 0 1, .advance 0 0] ++ .begin 0 .stop ::
    [.advance 0 7, .begin 1 .start, .advance 1 8, .advance 0 0, .advance 1 0, .advance 0 0, .advance 0 0, .advance 0 0, .advance 0 0])).log =
      (tmSchedule 3 [.begin 0 .start, .advance 0 1, .advance 0 0]).log ++ l ∧ .clock 0 .stop n ∈ l ∧
      .clock t₁ .start s ∈ (tmSchedule 3 ([.begin 0 .start, .advance 0 1, .advance 0 0] ++ .begin 0 .stop ::
    [.advance 0 7, .begin 1 .start, .advance 1 8, .advance 0 0, .advance 1 0, .advance 0 0, .advance 0 0, .advance 0 0, .advance 0 0])).log ∧
      .stopped 0 (.ok ((n - s) / 3)) ∈ l := by
  refine C121_stop 3 three_ne_zero _ 0 ?_ ?_ ?_ _ ?_ ?_
  · simp [tmSchedule, TmConfig.init, TmConfig.act, TmConfig.goto, TmConfig.advance, TmConfig.note]
  · simp [tmSchedule, TmConfig.init, TmConfig.act, TmConfig.goto, TmConfig.advance, TmConfig.note]
  · intro t'
    by_cases ht : t' = 0 <;>
      simp [tmSchedule, TmConfig.init, TmConfig.act, TmConfig.goto, TmConfig.advance, TmConfig.note, TmPc.InStop, ht]
  · simp [TmAct.Mild]
  · simp [tmCount]

/-- C121, finding: two threads that call `stop` on one timer may divide twice by the scale: both report the time over the
square of the scale. -/
theorem C121_scaled_fails (scale : ℝ) (hs : scale ≠ 0) (a b : ℝ) : ∃ acts : List TmAct,
    (tmSchedule scale acts).log = [.clock 0 .start a, .clock 0 .stop b, .clock 1 .stop b,
      .stopped 0 (.ok ((b - a) / scale ^ 2)), .stopped 1 (.ok ((b - a) / scale ^ 2))] ∧
    (tmSchedule scale acts).tWall = some ((b - a) / scale ^ 2) := by
  refine ⟨[.begin 0 .start, .advance 0 a, .advance 0 a, .begin 0 .stop, .advance 0 b, .begin 1 .stop, .advance 1 b, .advance 0 b, .advance 0 b,
    .advance 1 b, .advance 1 b, .advance 0 b, .advance 0 b, .advance 1 b, .advance 1 b, .advance 0 b, .advance 1 b], ?_⟩
  simp [tmSchedule, TmConfig.init, TmConfig.act, TmConfig.goto, TmConfig.advance, TmConfig.note, hs, div_div, sq]

/-- C121, finding: a `start` of another thread between the two operations of the first statement of `stop` gives a negative time though the clock never goes back. -/
theorem C121_negative_fails : ∃ acts : List TmAct,
    (tmSchedule 1 acts).log = [.clock 0 .start 0, .clock 0 .stop 1, .clock 1 .start 2, .stopped 0 (.ok (-1))] := by
  refine ⟨[.begin 0 .start, .advance 0 0, .advance 0 0, .begin 0 .stop, .advance 0 1, .begin 1 .start, .advance 1 2, .advance 1 2,
    .advance 0 3, .advance 0 3, .advance 0 3, .advance 0 3, .advance 0 3], ?_⟩
  simp [tmSchedule, TmConfig.init, TmConfig.act, TmConfig.goto, TmConfig.advance, TmConfig.note]
  norm_num

end QMat
