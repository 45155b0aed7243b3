import Mathlib.Analysis.Real.Sqrt
import Verif.Model.Mat3
import Verif.Model.Bezier

/-!
Rounded arithmetic. The other modules model Python floats by exact numbers; here every arithmetic operation of the code rounds
its result, as Python floats do.

Assumption (recorded in DESIGN.md section 3): an operation on floats gives `fl` of the exact result, where `fl : ℝ → ℝ` has
the properties of the structure `Rnd`. These hold for IEEE 754 rounding to nearest as long as no result overflows or is
subnormal. `Rnd.binary` (Lemmas/Rnd.lean) is a proof that rounding to `p` binary digits, ties to even, is an instance.
-/

noncomputable section

namespace X7

/-- What is assumed of the rounding of one operation. `u` is the unit roundoff, `2 ^ (-53)` for Python floats. -/
structure Rnd where
  fl : ℝ → ℝ
  u : ℝ
  u_nonneg : 0 ≤ u
  u_le : u ≤ 1 / 2
  mono : ∀ x y, x ≤ y → fl x ≤ fl y
  err : ∀ x, |fl x - x| ≤ u * |x|
  neg : ∀ x, fl (-x) = -fl x
  dbl : ∀ x, fl (2 * x) = 2 * fl x
  idem : ∀ x, fl (fl x) = fl x
  int : ∀ n : ℤ, |(n : ℝ)| * u ≤ 1 → fl n = n

namespace Rnd

/-- No rounding at all: the exact arithmetic of the other modules. -/
def exact : Rnd where
  fl := id
  u := 0
  u_nonneg := le_rfl
  u_le := by norm_num
  mono := fun _ _ h => h
  err := fun x => by simp
  neg := fun _ => rfl
  dbl := fun _ => rfl
  idem := fun _ => rfl
  int := fun _ _ => rfl

/-- The number is a float. -/
def Rep (R : Rnd) (x : ℝ) : Prop := R.fl x = x

/-- Both coordinates are floats. -/
def RepPt (R : Rnd) (p : Pt ℝ) : Prop := R.Rep p.x ∧ R.Rep p.y

/-- The bound on the relative error of `n` roundings. -/
def gam (R : Rnd) (n : ℕ) : ℝ := (1 + R.u) ^ n - 1

end Rnd

/-- How `np.dot` sums the three products of a row with a column: the order is up to numpy and the library it calls, and these
may use fused multiply-add, which does not round the product. -/
inductive DotMode
  | left
  | right
  | fused
  deriving DecidableEq

namespace Fl
variable (R : Rnd)

/-- One entry of `np.dot` (transform.py:43, 47, 86, 280): `a*x + b*y + c*z`. -/
def dot3 (mode : DotMode) (a x b y c z : ℝ) : ℝ :=
  match mode with
  | .left => R.fl (R.fl (R.fl (a * x) + R.fl (b * y)) + R.fl (c * z))
  | .right => R.fl (R.fl (a * x) + R.fl (R.fl (b * y) + R.fl (c * z)))
  | .fused => R.fl (R.fl (R.fl (a * x) + b * y) + c * z)

/-- transform.py:84-87, 278-280 `transform(x, y)`, see `Mat3.apply`. -/
def apply (mode : DotMode) (m : Mat3 ℝ) (p : Pt ℝ) : Pt ℝ :=
  ⟨dot3 R mode m.a p.x m.b p.y m.c 1, dot3 R mode m.d p.x m.e p.y m.f 1⟩

/-- `np.dot(m, n)` (transform.py:43, 47), see `Mat3.mul`. -/
def mul (mode : DotMode) (m n : Mat3 ℝ) : Mat3 ℝ :=
  ⟨dot3 R mode m.a n.a m.b n.d m.c n.g, dot3 R mode m.a n.b m.b n.e m.c n.h, dot3 R mode m.a n.c m.b n.f m.c n.i,
   dot3 R mode m.d n.a m.e n.d m.f n.g, dot3 R mode m.d n.b m.e n.e m.f n.h, dot3 R mode m.d n.c m.e n.f m.f n.i,
   dot3 R mode m.g n.a m.h n.d m.i n.g, dot3 R mode m.g n.b m.h n.e m.i n.h, dot3 R mode m.g n.c m.h n.f m.i n.i⟩

/-- geom.py:326-330 `BasePoint.mid`. -/
def mid (p q : Pt ℝ) : Pt ℝ := ⟨R.fl (R.fl (p.x + q.x) / 2), R.fl (R.fl (p.y + q.y) / 2)⟩

/-- geom.py:179-186, 391-396 point plus Vector, see `Pt.addVector`. -/
def addVector (p : Pt ℝ) (v : Vec ℝ) : Pt ℝ := ⟨R.fl (p.x + v.x), R.fl (p.y + v.y)⟩

/-- geom.py:404-408 point minus point, see `Pt.sub`. -/
def sub (p q : Pt ℝ) : Vec ℝ := ⟨R.fl (p.x - q.x), R.fl (p.y - q.y)⟩

/-- geom.py:197-203 Vector times number, see `Vec.mul`. -/
def smul (v : Vec ℝ) (t : ℝ) : Vec ℝ := ⟨R.fl (v.x * t), R.fl (v.y * t)⟩

/-- geom.py:691-696 `BBox.center`. -/
def center (b : BBox ℝ) : Except PyErr (Pt ℝ) :=
  match b with
  | .none => .error .value
  | .box xl yl xh yh => .ok ⟨R.fl (R.fl (xl + xh) / 2), R.fl (R.fl (yl + yh) / 2)⟩

/-- geom.py:712-716 `BBox.width`. -/
def width (b : BBox ℝ) : ℝ :=
  match b with
  | .none => 0
  | .box xl _ xh _ => R.fl (xh - xl)

/-- geom.py:718-723 `BBox.height`. -/
def height (b : BBox ℝ) : ℝ :=
  match b with
  | .none => 0
  | .box _ yl _ yh => R.fl (yh - yl)

/-- geom.py:725-729 `BBox.area`. -/
def area (b : BBox ℝ) : ℝ :=
  match b with
  | .none => 0
  | .box xl yl xh yh => R.fl (R.fl (xh - xl) * R.fl (yh - yl))

/-- geom.py:632-637 `BBox.expand`, see `BBox.expand`. -/
def expand (b : BBox ℝ) (expand_x : ℝ) (expand_y : Option ℝ) : Except PyErr (BBox ℝ) :=
  let ey := match expand_y with
    | Option.none => expand_x
    | some e => e
  let ex' := max expand_x (R.fl (-width R b / 2))
  let ey' := max ey (R.fl (-height R b / 2))
  match b with
  | .none => .error .type
  | .box xl yl xh yh =>
    .ok (BBox.mk' (R.fl (xl - ex')) (R.fl (yl - ey')) (R.fl (xh + ex')) (R.fl (yh + ey')))

/-- bezier.py:98-101 `ControlPoint.l`. -/
def cpL (cp : CP ℝ) : Pt ℝ := addVector R cp.c cp.dl

/-- bezier.py:103-106 `ControlPoint.r`. -/
def cpR (cp : CP ℝ) : Pt ℝ := addVector R cp.c cp.dr

/-- bezier.py:63-67 `ControlPoint.bbox`. -/
def cpBBox (cp : CP ℝ) : BBox ℝ := (BBox.ofPts (cpL R cp) (cpR R cp)).grow cp.c

/-- model.py:472-477 `ElemCurve.bbox_int`, see `bboxCps`. -/
def curveBBox (cps : List (CP ℝ)) : Except PyErr (BBox ℝ) :=
  match cps with
  | [] => .error .index
  | cp :: rest => .ok (rest.foldl (fun bb cp => bb.add (cpBBox R cp)) (cpBBox R cp))

/-- bezier.py:636-637 the local function `mid` of `bez_split`: `p + t*(q-p)`. -/
def lerp (t : ℝ) (p q : Pt ℝ) : Pt ℝ := addVector R p (smul R (sub R q p) t)

/-- bezier.py:633-651 `bez_split(cp1, cp2, t)`, see `bezSplit`. -/
def bezSplit (cp1 cp2 : CP ℝ) (t : ℝ) : CP ℝ × CP ℝ × CP ℝ :=
  let a := cp1.c
  let b := cpR R cp1
  let c := cpL R cp2
  let d := cp2.c
  let ab := lerp R t a b
  let bc := lerp R t b c
  let cd := lerp R t c d
  let abc := lerp R t ab bc
  let bcd := lerp R t bc cd
  let abcd := lerp R t abc bcd
  (⟨a, cp1.dl, sub R ab a, "smooth"⟩, ⟨abcd, sub R abc abcd, sub R bcd abcd, "smooth"⟩,
    ⟨d, sub R cd d, cp2.dr, "smooth"⟩)

/-- bezier.py:671-672 `s3 * a + 3 * s2t * b + 3 * st2 * c + t3 * d`, one coordinate, with Python's order of evaluation:
products and sums associate to the left. -/
def bezSum (s3 s2t st2 t3 a b c d : ℝ) : ℝ :=
  R.fl (R.fl (R.fl (R.fl (s3 * a) + R.fl (R.fl (3 * s2t) * b)) + R.fl (R.fl (3 * st2) * c)) + R.fl (t3 * d))

/-- bezier.py:662-673 the body of the loop of `bez` for one `t`, see `bezAt`. -/
def bezAt (a b c d : Pt ℝ) (t : ℝ) : Pt ℝ :=
  let t2 := R.fl (t * t)
  let t3 := R.fl (t * t2)
  let s := R.fl (1 - t)
  let s2 := R.fl (s * s)
  let s3 := R.fl (s * s2)
  let s2t := R.fl (s2 * t)
  let st2 := R.fl (s * t2)
  ⟨bezSum R s3 s2t st2 t3 a.x b.x c.x d.x, bezSum R s3 s2t st2 t3 a.y b.y c.y d.y⟩

/-- bezier.py:654-674 `bez(..., as_xy=True)`, see `bezXY`: the parameter is the rounded quotient. -/
def bezXY (a b c d : Pt ℝ) (steps : ℕ) : List (Pt ℝ) :=
  [a] ++ ((List.range' 1 (steps - 1)).map fun (ti : ℕ) => bezAt R a b c d (R.fl ((ti : ℝ) / (steps : ℝ)))) ++ [d]

/-- bezier.py:654-678 `bez(..., as_xy=False)`. -/
def bez (a b c d : Pt ℝ) (steps : ℕ) : List ℝ := xyFlatten (bezXY R a b c d steps)

/-- bezier.py:681-697 `bez_path(transform, cps, closed, steps)`, see `bezPath`; `f` is what `transform_pts` does to each
point. -/
def bezPath (f : Pt ℝ → Pt ℝ) (cps : List (CP ℝ)) (closed : Bool) (steps : ℕ) : List ℝ :=
  if cps.isEmpty then []
  else
    let extra := if closed then cps else []
    (cps.zip (cps.tail ++ extra)).foldl (fun pts pq =>
      let bez_pts := bez R (f pq.1.c) (f (cpR R pq.1)) (f (cpL R pq.2)) (f pq.2.c) steps
      if pts.length ≠ 0 then pts ++ bez_pts.drop 2 else pts ++ bez_pts) []

/-- geom.py:158-162 `Vector.dot`. -/
def dot (v w : Vec ℝ) : ℝ := R.fl (R.fl (v.x * w.x) + R.fl (v.y * w.y))

/-- geom.py:164-168 `Vector.cross`. -/
def cross (v w : Vec ℝ) : ℝ := R.fl (R.fl (v.x * w.y) - R.fl (v.y * w.x))

/-- anim.py:219-224 `AnimationLinear.update`, also 249-254 the last two lines of `AnimationSinusoidal.update`: the new
coordinates of the point for the times `tx`, `ty` of the two coordinates. -/
def animLinear (orig target : Pt ℝ) (tx ty : ℝ) : Pt ℝ :=
  let sx := R.fl (1 - tx)
  let sy := R.fl (1 - ty)
  ⟨R.fl (R.fl (sx * orig.x) + R.fl (tx * target.x)), R.fl (R.fl (sy * orig.y) + R.fl (ty * target.y))⟩

end Fl
end X7
