import Mathlib.Order.Lattice
import Mathlib.Order.Defs.LinearOrder
import Mathlib.Order.MinMax
import Verif.Model.Vec

/-!
Model of `BBox` (x7/geom/geom.py 537-808).

A box is either the coordinate-free `BBox(None)` or has four coordinates. The coordinates of a `box` need not be
sorted in this type (item assignment can unsort them); that every constructor and operation sorts them is a theorem.
Simplification: item assignment on `BBox(None)`, which would leave a mixture of `None` and numbers, is not represented.

The order-only part is over any linear order `α` (no arithmetic), so it applies to Python ints and to
non-NaN floats without any rounding assumption.
-/

namespace X7

/-- geom.py:563 the four slots `xl, yl, xh, yh`, or all `None`. -/
inductive BBox (α : Type*)
  | none
  | box (xl yl xh yh : α)
  deriving DecidableEq, Repr

/-- An argument of the constructor: a number, a point, a tuple of numbers, or anything else. -/
inductive BArg (α : Type*)
  | num (a : α)
  | pt (p : Pt α)
  | tup (l : List α)
  | other

namespace BBox

section Order
variable {α : Type*} [LinearOrder α]

/-- geom.py:602-603 the last two lines of `BBox.__init__`: sort the coordinates. -/
def mk' (xl yl xh yh : α) : BBox α := .box (min xl xh) (min yl yh) (max xl xh) (max yl yh)

/-- geom.py:581-603 `BBox(p1, p2)`. -/
def ofPts (p q : Pt α) : BBox α := mk' p.x p.y q.x q.y

/-- Python truth value of an optional argument: `None`, `0` and `()` are false. -/
def truthy [Zero α] : Option (BArg α) → Bool
  | .none => false
  | .some (.num a) => decide (a ≠ 0)
  | .some (.tup l) => !l.isEmpty
  | .some _ => true

/-- geom.py:581-603 `BBox.__init__` with its argument dispatch. `none` stands for an omitted argument or `None`.
A tuple of the wrong length fails to unpack (`ValueError`); comparing a non-number with `min` is a `TypeError`.
Simplification: tuples hold numbers only. -/
def init [Zero α] (xl yl xh yh : Option (BArg α)) : Except PyErr (BBox α) :=
  match xl with
  | .none => .ok .none
  | .some xl' =>
    match yl with
    | .none =>
      if truthy xh || truthy yh then .error .type
      else match xl' with
        | .tup [a, b, c, d] => .ok (mk' a b c d)
        | .tup _ => .error .value
        | _ => .error .type
    | .some yl' =>
      match xh with
      | .none =>
        if truthy yh then .error .type
        else match xl', yl' with
          | .pt p, .pt q => .ok (ofPts p q)
          | _, _ => .error .type
      | .some xh' =>
        match xl', yl', xh', yh with
        | .num a, .num b, .num c, .some (.num d) => .ok (mk' a b c d)
        | _, _, _, _ => .error .type

/-- geom.py:616-617 `__getitem__` with index 0..3 (`None` for every slot of a none box). Negative and
out-of-range indices follow tuple indexing: `IndexError` outside -4..3. -/
def getitem (b : BBox α) (i : ℤ) : Except PyErr (Option α) :=
  match b, i with
  | .box xl _ _ _, 0 | .box xl _ _ _, -4 => .ok (some xl)
  | .box _ yl _ _, 1 | .box _ yl _ _, -3 => .ok (some yl)
  | .box _ _ xh _, 2 | .box _ _ xh _, -2 => .ok (some xh)
  | .box _ _ _ yh, 3 | .box _ _ _ yh, -1 => .ok (some yh)
  | .none, i => if -4 ≤ i ∧ i ≤ 3 then .ok Option.none else .error .index
  | _, _ => .error .index

/-- geom.py:619-620 `__setitem__` on a box with coordinates, index 0..3 (see the note at the top). -/
def setitem (b : BBox α) (i : Fin 4) (v : α) : BBox α :=
  match b, i with
  | .box _ yl xh yh, 0 => .box v yl xh yh
  | .box xl _ xh yh, 1 => .box xl v xh yh
  | .box xl yl _ yh, 2 => .box xl yl v yh
  | .box xl yl xh _, 3 => .box xl yl xh v
  | .none, _ => .none

/-- geom.py:622-623 `__round__`, with the rounding function as a parameter; `round(None)` is a `TypeError`. -/
def round (b : BBox α) (f : α → α) : Except PyErr (BBox α) :=
  match b with
  | .none => .error .type
  | .box xl yl xh yh => .ok (mk' (f xl) (f yl) (f xh) (f yh))

/-- geom.py:625-627 `sort` (`min(None, None)` is a `TypeError`). -/
def sort (b : BBox α) : Except PyErr (BBox α) :=
  match b with
  | .none => .error .type
  | .box xl yl xh yh => .ok (.box (min xl xh) (min yl yh) (max xl xh) (max yl yh))

/-- geom.py:629-630 `copy`. -/
def copy (b : BBox α) : BBox α :=
  match b with
  | .none => .none
  | .box xl yl xh yh => mk' xl yl xh yh

/-- geom.py:640-643 `is_none`. -/
def isNone (b : BBox α) : Bool :=
  match b with
  | .none => true
  | .box .. => false

/-- geom.py:645-648 `is_empty`. -/
def isEmpty (b : BBox α) : Bool :=
  match b with
  | .none => true
  | .box xl yl xh yh => decide (xl = xh) || decide (yl = yh)

/-- geom.py:650-689 `p1`/`pll`. -/
def pll (b : BBox α) : Except PyErr (Pt α) :=
  match b with
  | .none => .error .value
  | .box xl yl _ _ => .ok ⟨xl, yl⟩

/-- geom.py:671-676 `plh`. -/
def plh (b : BBox α) : Except PyErr (Pt α) :=
  match b with
  | .none => .error .value
  | .box xl _ _ yh => .ok ⟨xl, yh⟩

/-- geom.py:678-683 `phl`. -/
def phl (b : BBox α) : Except PyErr (Pt α) :=
  match b with
  | .none => .error .value
  | .box _ yl xh _ => .ok ⟨xh, yl⟩

/-- geom.py:657-662, 685-690 `p2`/`phh`. -/
def phh (b : BBox α) : Except PyErr (Pt α) :=
  match b with
  | .none => .error .value
  | .box _ _ xh yh => .ok ⟨xh, yh⟩

/-- geom.py:699-710 `__add__` with another BBox. -/
def add (a b : BBox α) : BBox α :=
  match b with
  | .none => a.copy
  | .box xl' yl' xh' yh' =>
    match a with
    | .none => b.copy
    | .box xl yl xh yh => mk' (min xl xl') (min yl yl') (max xh xh') (max yh yh')

/-- geom.py:735-745 `grow` (in place; the new state is returned). -/
def grow (b : BBox α) (p : Pt α) : BBox α :=
  match b with
  | .none => .box p.x p.y p.x p.y
  | .box xl yl xh yh => .box (min xl p.x) (min yl p.y) (max xh p.x) (max yh p.y)

/-- `for p in ps: b.grow(p)` (geom.py:735-745, the loop is the caller's). -/
def growAll (b : BBox α) (ps : List (Pt α)) : BBox α := ps.foldl grow b

/-- `sum(bs, BBox(None))` (geom.py:698-710, the loop is the caller's). -/
def sumAll (bs : List (BBox α)) : BBox α := bs.foldl add .none

/-- geom.py:752-757 `contains_pt` (strict). -/
def containsPt (b : BBox α) (p : Pt α) : Bool :=
  match b with
  | .none => false
  | .box xl yl xh yh => decide (xl < p.x ∧ p.x < xh ∧ yl < p.y ∧ p.y < yh)

/-- geom.py:759-763 `contains`. -/
def contains (a b : BBox α) : Except PyErr Bool :=
  match a, b with
  | .box xl yl xh yh, .box xl' yl' xh' yh' =>
    .ok (decide (xl ≤ xl' ∧ xh' ≤ xh ∧ yl ≤ yl' ∧ yh' ≤ yh))
  | _, _ => .error .value

/-- geom.py:765-771 `touches_pt`. -/
def touchesPt (b : BBox α) (p : Pt α) : Bool :=
  match b with
  | .none => false
  | .box xl yl xh yh =>
    decide (((p.x = xl ∨ p.x = xh) ∧ yl < p.y ∧ p.y < yh) ∨ ((p.y = yl ∨ p.y = yh) ∧ xl < p.x ∧ p.x < xh))

/-- geom.py:773-778 `touches_side`. -/
def touchesSide (a b : BBox α) : Bool :=
  match a, b with
  | .box xl yl xh yh, .box xl' yl' xh' yh' =>
    decide (((xh' = xl ∨ xl' = xh) ∧ yl < yh' ∧ yl' < yh) ∨ ((yh' = yl ∨ yl' = yh) ∧ xl < xh' ∧ xl' < xh))
  | _, _ => false

/-- geom.py:780-785 `touches`. -/
def touches (a b : BBox α) : Bool :=
  match a, b with
  | .box xl yl xh yh, .box xl' yl' xh' yh' =>
    decide (((xh' = xl ∨ xl' = xh) ∧ yl ≤ yh' ∧ yl' ≤ yh) ∨ ((yh' = yl ∨ yl' = yh) ∧ xl ≤ xh' ∧ xl' ≤ xh))
  | _, _ => false

/-- geom.py:787-793 `overlaps`. -/
def overlaps (a b : BBox α) : Except PyErr Bool :=
  match a, b with
  | .box xl yl xh yh, .box xl' yl' xh' yh' =>
    if xl ≥ xh' ∨ xh ≤ xl' ∨ yl ≥ yh' ∨ yh ≤ yl' then .ok false else .ok true
  | _, _ => .error .value

/-- geom.py:795-801 `intersection`. -/
def inter (a b : BBox α) : BBox α :=
  match a, b with
  | .box xl yl xh yh, .box xl' yl' xh' yh' =>
    if xl > xh' ∨ xh < xl' ∨ yl > yh' ∨ yh < yl' then .none
    else mk' (max xl xl') (max yl yl') (min xh xh') (min yh yh')
  | _, _ => .none

/-- geom.py:747-750 `transformed`: corners through the transform (`f` is its action on points;
`transform_pts` of the four-point list is the pointwise map), then the sum of two boxes. -/
def transformed (b : BBox α) (f : Pt α → Pt α) : Except PyErr (BBox α) := do
  let pll ← b.pll
  let plh ← b.plh
  let phh ← b.phh
  let phl ← b.phl
  let ll := f pll
  let lh := f plh
  let hh := f phh
  let hl := f phl
  return add (ofPts ll lh) (ofPts hh hl)

end Order

section Arith
variable {K : Type*} [Field K] [LinearOrder K]

/-- geom.py:692-697 `center`. -/
def center (b : BBox K) : Except PyErr (Pt K) :=
  match b with
  | .none => .error .value
  | .box xl yl xh yh => .ok ⟨(xl + xh) / 2, (yl + yh) / 2⟩

/-- geom.py:712-716 `width`. -/
def width (b : BBox K) : K :=
  match b with
  | .none => 0
  | .box xl _ xh _ => xh - xl

/-- geom.py:718-723 `height`. -/
def height (b : BBox K) : K :=
  match b with
  | .none => 0
  | .box _ yl _ yh => yh - yl

/-- geom.py:725-729 `area`. -/
def area (b : BBox K) : K :=
  match b with
  | .none => 0
  | .box xl yl xh yh => (xh - xl) * (yh - yl)

/-- geom.py:632-638 `expand`; `expand_y = none` is the default. On a none box `None - x` is a `TypeError`. -/
def expand (b : BBox K) (expand_x : K) (expand_y : Option K) : Except PyErr (BBox K) :=
  let ey := match expand_y with
    | Option.none => expand_x
    | some e => e
  let ex' := max expand_x (-b.width / 2)
  let ey' := max ey (-b.height / 2)
  match b with
  | .none => .error .type
  | .box xl yl xh yh => .ok (mk' (xl - ex') (yl - ey') (xh + ex') (yh + ey'))

end Arith

end BBox
end X7
