import Mathlib.Tactic.FieldSimp
import Mathlib.Tactic.Linarith
import Mathlib.Tactic.Positivity
import Mathlib.Tactic.Push
import Mathlib.Analysis.Real.Sqrt
import Mathlib.Tactic.LinearCombination
import Mathlib.Algebra.Order.Floor.Ring

/-!
# Computable enclosures of real numbers

Fixed-point balls and elements of a quadratic field, with the operations a computation needs and what
they say about the real numbers they stand for.
-/

namespace QMat

/-- Arithmetic on a representation of real numbers. -/
structure Arith (α : Type) where
  ofRat : ℚ → α
  add : α → α → α
  sub : α → α → α
  mul : α → α → α
  div : α → α → α

/-- The operations respect what `rel` says about the real number represented. -/
structure Arith.Sound {α : Type} (A : Arith α) (rel : α → ℝ → Prop) : Prop where
  ofRat : ∀ q : ℚ, rel (A.ofRat q) q
  add : ∀ {a b x y}, rel a x → rel b y → rel (A.add a b) (x + y)
  sub : ∀ {a b x y}, rel a x → rel b y → rel (A.sub a b) (x - y)
  mul : ∀ {a b x y}, rel a x → rel b y → rel (A.mul a b) (x * y)
  div : ∀ {a b x y}, rel a x → rel b y → rel (A.div a b) (x / y)

/-! ## Balls -/

/-- The real numbers `x` with `|x * 2^60 - mid| ≤ rad`. -/
structure Ball where
  mid : ℤ
  rad : ℕ

namespace Ball

def S : ℕ := 1152921504606846976

theorem S_pos : (0:ℝ) < (S:ℝ) := by norm_num [S]

def Mem (b : Ball) (x : ℝ) : Prop := |x * S - b.mid| ≤ b.rad

def ofRat (q : ℚ) : Ball := ⟨q.num * S / q.den, 1⟩

def add (a b : Ball) : Ball := ⟨a.mid + b.mid, a.rad + b.rad⟩

def sub (a b : Ball) : Ball := ⟨a.mid - b.mid, a.rad + b.rad⟩

def mul (a b : Ball) : Ball :=
  ⟨a.mid * b.mid / S, (a.mid.natAbs * b.rad + b.mid.natAbs * a.rad + a.rad * b.rad) / S + 2⟩

def inv (b : Ball) : Option Ball :=
  if b.rad < b.mid.natAbs then
    some ⟨S * S / b.mid, S * S * b.rad / ((b.mid.natAbs - b.rad) * b.mid.natAbs) + 2⟩
  else none

theorem ediv_err (a : ℤ) {b : ℤ} (hb : b ≠ 0) : |(a:ℝ) / b - ((a / b : ℤ) : ℝ)| ≤ 1 := by
  have hb' : (b:ℝ) ≠ 0 := by exact_mod_cast hb
  have h := Int.emod_add_mul_ediv a b
  have h1 := Int.emod_nonneg a hb
  have h2 := Int.emod_lt_abs a hb
  have e : (a:ℝ) / b - ((a / b : ℤ) : ℝ) = ((a % b : ℤ) : ℝ) / b := by
    have : (a:ℝ) = ((a % b : ℤ) : ℝ) + b * ((a / b : ℤ) : ℝ) := by exact_mod_cast h.symm
    rw [this]
    field_simp
    ring
  rw [e, abs_div, div_le_one (abs_pos.mpr hb')]
  have h3 : |((a % b : ℤ) : ℝ)| = ((a % b : ℤ) : ℝ) := abs_of_nonneg (by exact_mod_cast h1)
  rw [h3]
  exact_mod_cast h2.le

theorem natDiv_err (a b : ℕ) : (a:ℝ) / b ≤ ((a / b : ℕ) : ℝ) + 1 := by
  rcases Nat.eq_zero_or_pos b with rfl | hb
  · simp
  · have hb' : (0:ℝ) < b := by exact_mod_cast hb
    rw [div_le_iff₀ hb']
    have := Nat.lt_div_mul_add (a := a) hb
    have h2 : a ≤ (a / b + 1) * b := by
      have : (a / b + 1) * b = a / b * b + b := by ring
      omega
    exact_mod_cast h2

theorem natAbs_cast (m : ℤ) : ((m.natAbs : ℕ) : ℝ) = |(m:ℝ)| := by
  rw [← Int.cast_natCast, Int.natCast_natAbs, Int.cast_abs]

theorem mem_ofRat (q : ℚ) : (ofRat q).Mem q := by
  have h := ediv_err (q.num * S) (b := q.den) (by exact_mod_cast q.den_nz)
  have e : ((q:ℚ):ℝ) * S = ((q.num * S : ℤ) : ℝ) / ((q.den : ℤ) : ℝ) := by
    conv_lhs => rw [Rat.cast_def]
    push_cast
    ring
  simp only [Mem, ofRat]
  rw [e]
  simpa using h

theorem mem_add {a b : Ball} {x y : ℝ} (hx : a.Mem x) (hy : b.Mem y) : (a.add b).Mem (x + y) := by
  simp only [Mem, add] at *
  push_cast
  have e : (x + y) * S - (a.mid + b.mid) = (x * S - a.mid) + (y * S - b.mid) := by ring
  rw [e]
  exact (abs_add_le _ _).trans (add_le_add hx hy)

theorem mem_sub {a b : Ball} {x y : ℝ} (hx : a.Mem x) (hy : b.Mem y) : (a.sub b).Mem (x - y) := by
  simp only [Mem, sub] at *
  push_cast
  have e : (x - y) * S - (a.mid - b.mid) = (x * S - a.mid) - (y * S - b.mid) := by ring
  rw [e]
  exact (abs_sub _ _).trans (add_le_add hx hy)

theorem mem_mul {a b : Ball} {x y : ℝ} (hx : a.Mem x) (hy : b.Mem y) : (a.mul b).Mem (x * y) := by
  have hS := S_pos
  simp only [Mem, mul] at *
  set X := x * S with hX
  set Y := y * S with hY
  have hp : |X * Y - a.mid * b.mid| ≤ |(a.mid:ℝ)| * b.rad + |(b.mid:ℝ)| * a.rad + a.rad * b.rad := by
    have e : X * Y - a.mid * b.mid = a.mid * (Y - b.mid) + b.mid * (X - a.mid) +
        (X - a.mid) * (Y - b.mid) := by ring
    rw [e]
    refine (abs_add_le _ _).trans (add_le_add ((abs_add_le _ _).trans (add_le_add ?_ ?_)) ?_) <;>
      rw [abs_mul]
    · exact mul_le_mul_of_nonneg_left hy (abs_nonneg _)
    · exact mul_le_mul_of_nonneg_left hx (abs_nonneg _)
    · exact mul_le_mul hx hy (abs_nonneg _) (Nat.cast_nonneg _)
  have h1 := ediv_err (a.mid * b.mid) (b := (S:ℤ)) (by norm_num [S])
  have h2 := natDiv_err (a.mid.natAbs * b.rad + b.mid.natAbs * a.rad + a.rad * b.rad) S
  push_cast [natAbs_cast] at h1 h2 ⊢
  have e : x * y * S = X * Y / S := by rw [hX, hY]; field_simp
  rw [e]
  have h3 : |X * Y / S - a.mid * b.mid / S| ≤
      (|(a.mid:ℝ)| * b.rad + |(b.mid:ℝ)| * a.rad + a.rad * b.rad) / S := by
    rw [← sub_div, abs_div, abs_of_pos hS]
    exact div_le_div_of_nonneg_right hp hS.le
  have h4 := abs_sub_le (X * Y / S) (a.mid * b.mid / S : ℝ) (((a.mid * b.mid / (S:ℤ) : ℤ)) : ℝ)
  linarith

theorem mem_inv {b c : Ball} {y : ℝ} (hy : b.Mem y) (h : b.inv = some c) : c.Mem (1 / y) := by
  have hS := S_pos
  unfold inv at h
  split_ifs at h with hr
  simp only [Option.some.injEq] at h
  subst h
  simp only [Mem] at *
  have hm0 : b.mid ≠ 0 := by
    intro h0
    rw [h0] at hr
    simp at hr
  have hmr : (b.mid:ℝ) ≠ 0 := by exact_mod_cast hm0
  have hmp : 0 < |(b.mid:ℝ)| := abs_pos.mpr hmr
  have hr' : (b.rad:ℝ) < |(b.mid:ℝ)| := by
    rw [← natAbs_cast]
    exact_mod_cast hr
  have hlow : |(b.mid:ℝ)| - b.rad ≤ |y * S| := by
    have := abs_sub_abs_le_abs_sub (b.mid:ℝ) (y * S)
    rw [abs_sub_comm] at this
    linarith
  have hyS : y * S ≠ 0 := by
    intro h0
    rw [h0, abs_zero] at hlow
    linarith
  have hy0 : y ≠ 0 := by
    rintro rfl
    simp at hyS
  have h1 := ediv_err ((S:ℤ) * S) hm0
  have h2 := natDiv_err (S * S * b.rad) ((b.mid.natAbs - b.rad) * b.mid.natAbs)
  push_cast [natAbs_cast, Nat.cast_sub hr.le] at h1 h2 ⊢
  have e : 1 / y * S = S * S / (y * S) := by field_simp
  have h3 : |(S:ℝ) * S / (y * S) - S * S / b.mid| ≤
      S * S * b.rad / ((|(b.mid:ℝ)| - b.rad) * |(b.mid:ℝ)|) := by
    have e2 : (S:ℝ) * S / (y * S) - S * S / b.mid = S * S * (b.mid - y * S) / (y * S * b.mid) := by
      field_simp
    rw [e2, abs_div, abs_mul, abs_mul (y * (S:ℝ)), abs_of_pos (mul_pos hS hS)]
    rw [abs_sub_comm] at hy
    apply div_le_div₀
    · positivity
    · exact mul_le_mul_of_nonneg_left hy (by positivity)
    · exact mul_pos (by linarith) hmp
    · exact mul_le_mul_of_nonneg_right hlow hmp.le
  rw [e]
  have h4 := abs_sub_le ((S:ℝ) * S / (y * S)) (S * S / b.mid : ℝ) ((((S:ℤ) * S / b.mid : ℤ)) : ℝ)
  linarith

/-- The balls with the possibility that nothing is known. -/
def map2 (f : Ball → Ball → Ball) : Option Ball → Option Ball → Option Ball
  | some a, some b => some (f a b)
  | _, _ => none

def divO : Option Ball → Option Ball → Option Ball
  | some a, some b => match b.inv with
    | some c => some (a.mul c)
    | none => none
  | _, _ => none

def arith : Arith (Option Ball) := ⟨fun q => some (ofRat q), map2 add, map2 sub, map2 mul, divO⟩

/-- What a ball says about a number. -/
def Rel (b : Option Ball) (x : ℝ) : Prop := ∀ c, b = some c → c.Mem x

theorem sound : arith.Sound Rel where
  ofRat q := by rintro c ⟨rfl⟩; exact mem_ofRat q
  add := by
    rintro (_ | a) (_ | b) x y hx hy c ⟨rfl⟩
    exact mem_add (hx a rfl) (hy b rfl)
  sub := by
    rintro (_ | a) (_ | b) x y hx hy c ⟨rfl⟩
    exact mem_sub (hx a rfl) (hy b rfl)
  mul := by
    rintro (_ | a) (_ | b) x y hx hy c ⟨rfl⟩
    exact mem_mul (hx a rfl) (hy b rfl)
  div := by
    rintro (_ | a) (_ | b) x y hx hy c h
    · cases h
    · cases h
    · cases h
    · simp only [arith, divO] at h
      cases hi : b.inv with
      | none => rw [hi] at h; cases h
      | some d =>
        rw [hi] at h
        obtain rfl : a.mul d = c := by simpa using h
        rw [div_eq_mul_one_div]
        exact mem_mul (hx a rfl) (mem_inv (hy b rfl) hi)

/-- The ball does not contain the fraction `1 / n`. -/
def avoids (b : Option Ball) (n : ℕ) : Bool :=
  match b with
  | none => false
  | some b => decide (b.rad * n < (n * b.mid - S).natAbs)

theorem avoids_sound {b : Option Ball} {n : ℕ} (hn : 0 < n) (h : avoids b n = true) {x : ℝ}
    (hx : Rel b x) : x ≠ 1 / n := by
  cases b with
  | none => simp [avoids] at h
  | some b =>
    have hm := hx b rfl
    simp only [avoids, decide_eq_true_eq] at h
    rintro rfl
    have hn' : (0:ℝ) < n := by exact_mod_cast hn
    simp only [Mem] at hm
    have h1 : ((b.rad * n : ℕ) : ℝ) < (((n * b.mid - S).natAbs : ℕ) : ℝ) := by exact_mod_cast h
    rw [natAbs_cast] at h1
    push_cast at h1
    have h2 : (n:ℝ) * b.mid - S = -(n * (1 / n * S - b.mid)) := by
      field_simp
      ring
    rw [h2, abs_neg, abs_mul, abs_of_pos hn'] at h1
    nlinarith

end Ball

/-! ## Quadratic fields -/

/-- `a + b √d`, or nothing known. -/
structure QuadNum where
  a : ℚ
  b : ℚ

namespace QuadNum

variable (d : ℕ)

noncomputable def val (q : QuadNum) : ℝ := q.a + q.b * √(d:ℝ)

def mul (p q : QuadNum) : QuadNum := ⟨p.a * q.a + d * (p.b * q.b), p.a * q.b + p.b * q.a⟩

def norm (q : QuadNum) : ℚ := q.a * q.a - d * (q.b * q.b)

def map2 (f : QuadNum → QuadNum → QuadNum) : Option QuadNum → Option QuadNum → Option QuadNum
  | some a, some b => some (f a b)
  | _, _ => none

def divO : Option QuadNum → Option QuadNum → Option QuadNum
  | some p, some q =>
    if q.norm d = 0 then none
    else some (mul d p ⟨q.a / q.norm d, -q.b / q.norm d⟩)
  | _, _ => none

def arith : Arith (Option QuadNum) :=
  ⟨fun q => some ⟨q, 0⟩, map2 fun p q => ⟨p.a + q.a, p.b + q.b⟩, map2 fun p q => ⟨p.a - q.a, p.b - q.b⟩,
    map2 (mul d), divO d⟩

def Rel (q : Option QuadNum) (x : ℝ) : Prop := ∀ c, q = some c → x = c.val d

theorem mul_val (p q : QuadNum) : (mul d p q).val d = p.val d * q.val d := by
  have h : √(d:ℝ) * √(d:ℝ) = d := Real.mul_self_sqrt (by positivity)
  simp only [val, mul]
  push_cast
  linear_combination (-(p.b:ℝ) * q.b) * h

theorem sound : (arith d).Sound (Rel d) where
  ofRat q := by rintro c ⟨rfl⟩; simp [val]
  add := by
    rintro (_ | a) (_ | b) x y hx hy c ⟨rfl⟩
    rw [hx a rfl, hy b rfl]
    simp only [val]
    push_cast
    ring
  sub := by
    rintro (_ | a) (_ | b) x y hx hy c ⟨rfl⟩
    rw [hx a rfl, hy b rfl]
    simp only [val]
    push_cast
    ring
  mul := by
    rintro (_ | a) (_ | b) x y hx hy c ⟨rfl⟩
    rw [hx a rfl, hy b rfl, mul_val]
  div := by
    rintro (_ | a) (_ | b) x y hx hy c h
    · cases h
    · cases h
    · cases h
    · simp only [arith, divO] at h
      split_ifs at h with hn
      simp only [Option.some.injEq] at h
      subst h
      rw [hx a rfl, hy b rfl, mul_val, div_eq_mul_inv]
      congr 1
      have hn' : ((b.norm d : ℚ) : ℝ) ≠ 0 := by exact_mod_cast hn
      have h : √(d:ℝ) * √(d:ℝ) = d := Real.mul_self_sqrt (by positivity)
      have e : ((b.norm d : ℚ) : ℝ) = b.val d * (b.a - b.b * √(d:ℝ)) := by
        simp only [val, norm]
        push_cast
        linear_combination (b.b * b.b : ℝ) * h
      have hb : b.val d ≠ 0 := by
        intro h0
        rw [e, h0, zero_mul] at hn'
        exact hn' rfl
      have e2 : (⟨b.a / b.norm d, -b.b / b.norm d⟩ : QuadNum).val d =
          (b.a - b.b * √(d:ℝ)) / ((b.norm d : ℚ) : ℝ) := by
        simp only [val]
        push_cast
        ring
      rw [e2, inv_eq_one_div, div_eq_div_iff hb hn', one_mul, e]
      ring

/-- The element is the rational number `q`. -/
def isRat (x : Option QuadNum) (q : ℚ) : Bool :=
  match x with
  | none => false
  | some x => decide (x.a = q) && decide (x.b = 0)

theorem isRat_sound {x : Option QuadNum} {q : ℚ} (h : isRat x q = true) {y : ℝ} (hy : Rel d x y) :
    y = q := by
  cases x with
  | none => simp [isRat] at h
  | some x =>
    simp only [isRat, Bool.and_eq_true, decide_eq_true_eq] at h
    rw [hy x rfl, val, h.1, h.2]
    simp

end QuadNum

end QMat
