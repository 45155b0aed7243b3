import Mathlib.Data.EReal.Operations
import Mathlib.Data.Int.Log
import Verif.Model.NanBox
import Verif.Model.Rnd
import Verif.Model.Draw

/-!
Floats of finite range: rounding to nearest with gradual underflow, overflow to infinity, infinities and NaN, and the arithmetic of
boxes, points and transforms of x7/geom/geom.py and x7/geom/transform.py on them.

Assumption (DESIGN.md section 3): Python floats are IEEE 754 binary64 with rounding to nearest, ties to even (`Fmt.double`).
Simplification: the two zeros are one number (they compare equal; no code modelled here divides or looks at the sign of zero).
-/

noncomputable section

namespace X7

/-- A binary format: `p` digits, `2 ^ emin` is the smallest positive float and `2 ^ emax` the distance of the largest floats. -/
structure Fmt where
  p : ℕ
  emin : ℤ
  emax : ℤ
  hp : 2 ≤ p
  he : emin ≤ emax

namespace Fmt
open NB
variable (F : Fmt)

/-- Python floats: IEEE 754 binary64. -/
def double : Fmt := ⟨53, -1074, 971, by norm_num, by norm_num⟩

/-- The largest finite float. -/
def maxf : ℝ := (2 ^ F.p - 1) * 2 ^ F.emax

/-- The exponent of the last digit of a number of the size of `x`. -/
def last (x : ℝ) : ℤ := max F.emin (Int.log 2 |x| - F.p + 1)

/-- Rounding to `p` digits but not below the exponent `emin`, ties to even, no upper limit yet. -/
def rnd (x : ℝ) : ℝ := 2 ^ F.last x * pyRound (x / 2 ^ F.last x)

/-- A finite float. -/
def fin (x : ℝ) : Num EReal := .num (x : EReal)

/-- The float that an operation with the exact result `x` gives: infinite if the rounded value exceeds the largest float. -/
def toF (x : ℝ) : Num EReal :=
  if F.maxf < F.rnd x then .num ⊤ else if F.rnd x < -F.maxf then .num ⊥ else fin (F.rnd x)

/-- `-a`. -/
def neg : Num EReal → Num EReal
  | .nan => .nan
  | .num a => .num (-a)

open scoped Classical in
/-- `a + b`: infinities of different sign give NaN. -/
def add (a b : Num EReal) : Num EReal :=
  match a, b with
  | .num a, .num b =>
    if (a = ⊤ ∧ b = ⊥) ∨ (a = ⊥ ∧ b = ⊤) then .nan
    else if a = ⊤ ∨ b = ⊤ then .num ⊤
    else if a = ⊥ ∨ b = ⊥ then .num ⊥
    else F.toF (a.toReal + b.toReal)
  | _, _ => .nan

/-- `a - b`. -/
def sub (a b : Num EReal) : Num EReal := F.add a (neg b)

open scoped Classical in
/-- `a * b`: zero times infinity gives NaN. -/
def mul (a b : Num EReal) : Num EReal :=
  match a, b with
  | .num a, .num b =>
    if (a = 0 ∧ (b = ⊤ ∨ b = ⊥)) ∨ ((a = ⊤ ∨ a = ⊥) ∧ b = 0) then .nan
    else if a = ⊤ ∨ a = ⊥ ∨ b = ⊤ ∨ b = ⊥ then .num (a * b)
    else F.toF (a.toReal * b.toReal)
  | _, _ => .nan

open scoped Classical in
/-- `a / 2`. -/
def half (a : Num EReal) : Num EReal :=
  match a with
  | .nan => .nan
  | .num a => if a = ⊤ ∨ a = ⊥ then .num a else F.toF (a.toReal / 2)

open scoped Classical in
/-- Fused `a * b + c`, rounded once. -/
def fma (a b c : Num EReal) : Num EReal :=
  match a, b, c with
  | .num x, .num y, .num z =>
    if x = ⊤ ∨ x = ⊥ ∨ y = ⊤ ∨ y = ⊥ ∨ z = ⊤ ∨ z = ⊥ then
      if x = ⊤ ∨ x = ⊥ ∨ y = ⊤ ∨ y = ⊥ then F.add (F.mul a b) c else .num z
    else F.toF (x.toReal * y.toReal + z.toReal)
  | _, _, _ => .nan

/-- geom.py:712-716 `BBox.width`. -/
def width (b : BBox (Num EReal)) : Num EReal :=
  match b with
  | .none => fin 0
  | .box xl _ xh _ => F.sub xh xl

/-- geom.py:718-723 `BBox.height`. -/
def height (b : BBox (Num EReal)) : Num EReal :=
  match b with
  | .none => fin 0
  | .box _ yl _ yh => F.sub yh yl

/-- geom.py:725-729 `BBox.area`. -/
def area (b : BBox (Num EReal)) : Num EReal :=
  match b with
  | .none => fin 0
  | .box xl yl xh yh => F.mul (F.sub xh xl) (F.sub yh yl)

/-- geom.py:692-697 `BBox.center`. -/
def center (b : BBox (Num EReal)) : Except PyErr (Pt (Num EReal)) :=
  match b with
  | .none => .error .value
  | .box xl yl xh yh => .ok ⟨F.half (F.add xl xh), F.half (F.add yl yh)⟩

/-- geom.py:326-330 `BasePoint.mid`. -/
def mid (p q : Pt (Num EReal)) : Pt (Num EReal) := ⟨F.half (F.add p.x q.x), F.half (F.add p.y q.y)⟩

/-- geom.py:632-637 `BBox.expand`. -/
def expand (b : BBox (Num EReal)) (expand_x : Num EReal) (expand_y : Option (Num EReal)) : Except PyErr (BBox (Num EReal)) :=
  let ey := match expand_y with
    | Option.none => expand_x
    | some e => e
  let ex' := pmax expand_x (F.half (neg (F.width b)))
  let ey' := pmax ey (F.half (neg (F.height b)))
  match b with
  | .none => .error .type
  | .box xl yl xh yh => .ok (NB.mk' (F.sub xl ex') (F.sub yl ey') (F.add xh ex') (F.add yh ey'))

/-- One entry of `np.dot` (transform.py:43, 47, 86, 280), see `Fl.dot3`. -/
def dot3 (mode : DotMode) (a x b y c z : Num EReal) : Num EReal :=
  match mode with
  | .left => F.add (F.add (F.mul a x) (F.mul b y)) (F.mul c z)
  | .right => F.add (F.mul a x) (F.add (F.mul b y) (F.mul c z))
  | .fused => F.fma c z (F.fma b y (F.mul a x))

/-- transform.py:84-87, 278-280 `transform(x, y)` with a finite matrix, see `Fl.apply`. -/
def apply (mode : DotMode) (m : Mat3 ℝ) (p : Pt (Num EReal)) : Pt (Num EReal) :=
  ⟨F.dot3 mode (fin m.a) p.x (fin m.b) p.y (fin m.c) (fin 1), F.dot3 mode (fin m.d) p.x (fin m.e) p.y (fin m.f) (fin 1)⟩

end Fmt
end X7
