import Verif.Model.BBox

/-!
Model of `BBox` (x7/geom/geom.py 537-808) with coordinates that may be NaN, which compares false with everything. Model/BBox.lean is
about coordinates from a linear order; here every comparison and every `min` and `max` is written out as Python evaluates it. The type
`α` of the numbers other than NaN is any linear order; it may have infinities.
Simplification: the slots hold numbers (half filled boxes are in Model/BoxObj.lean); item assignment is left out.
-/

namespace X7.NB

/-- A number or NaN. -/
inductive Num (α : Type*)
  | nan
  | num (a : α)
  deriving DecidableEq

section
variable {α : Type*} [LinearOrder α]

/-- `a < b` (and `b > a`). -/
def lt : Num α → Num α → Bool
  | .num a, .num b => decide (a < b)
  | _, _ => false

/-- `a <= b` (and `b >= a`). -/
def le : Num α → Num α → Bool
  | .num a, .num b => decide (a ≤ b)
  | _, _ => false

/-- `a == b`. -/
def eq : Num α → Num α → Bool
  | .num a, .num b => decide (a = b)
  | _, _ => false

/-- Python `min(a, b)` (library, transcribed): the second argument replaces the first if it is less. -/
def pmin (a b : Num α) : Num α := if lt b a then b else a

/-- Python `max(a, b)` (library, transcribed): the second argument replaces the first if it is greater. -/
def pmax (a b : Num α) : Num α := if lt a b then b else a

/-- geom.py:602-603 the last two lines of `BBox.__init__`. -/
def mk' (xl yl xh yh : Num α) : BBox (Num α) := .box (pmin xl xh) (pmin yl yh) (pmax xl xh) (pmax yl yh)

/-- geom.py:581-603 `BBox(p1, p2)`. -/
def ofPts (p q : Pt (Num α)) : BBox (Num α) := mk' p.x p.y q.x q.y

/-- geom.py:611-614 `__eq__` with a box; `None == None` is true. -/
def beq (a b : BBox (Num α)) : Bool :=
  match a, b with
  | .none, .none => true
  | .box xl yl xh yh, .box xl' yl' xh' yh' => eq xl xl' && eq yl yl' && eq xh xh' && eq yh yh'
  | _, _ => false

/-- geom.py:625-627 `sort`. -/
def sort (b : BBox (Num α)) : Except PyErr (BBox (Num α)) :=
  match b with
  | .none => .error .type
  | .box xl yl xh yh => .ok (.box (pmin xl xh) (pmin yl yh) (pmax xl xh) (pmax yl yh))

/-- geom.py:629-630 `copy`. -/
def copy (b : BBox (Num α)) : BBox (Num α) :=
  match b with
  | .none => .none
  | .box xl yl xh yh => mk' xl yl xh yh

/-- geom.py:645-648 `is_empty`. -/
def isEmpty (b : BBox (Num α)) : Bool :=
  match b with
  | .none => true
  | .box xl yl xh yh => eq xl xh || eq yl yh

/-- geom.py:699-710 `__add__`. -/
def add (a b : BBox (Num α)) : BBox (Num α) :=
  match b with
  | .none => copy a
  | .box xl' yl' xh' yh' =>
    match a with
    | .none => copy b
    | .box xl yl xh yh => mk' (pmin xl xl') (pmin yl yl') (pmax xh xh') (pmax yh yh')

/-- geom.py:735-745 `grow`. -/
def grow (b : BBox (Num α)) (p : Pt (Num α)) : BBox (Num α) :=
  match b with
  | .none => .box p.x p.y p.x p.y
  | .box xl yl xh yh => .box (pmin xl p.x) (pmin yl p.y) (pmax xh p.x) (pmax yh p.y)

/-- `for p in ps: b.grow(p)` (geom.py:735-745, the loop is the caller's). -/
def growAll (b : BBox (Num α)) (ps : List (Pt (Num α))) : BBox (Num α) := ps.foldl grow b

/-- geom.py:752-757 `contains_pt`. -/
def containsPt (b : BBox (Num α)) (p : Pt (Num α)) : Bool :=
  match b with
  | .none => false
  | .box xl yl xh yh => lt xl p.x && lt p.x xh && lt yl p.y && lt p.y yh

/-- geom.py:759-763 `contains`. -/
def contains (a b : BBox (Num α)) : Except PyErr Bool :=
  match a, b with
  | .box xl yl xh yh, .box xl' yl' xh' yh' => .ok (le xl xl' && le xh' xh && le yl yl' && le yh' yh)
  | _, _ => .error .value

/-- geom.py:765-771 `touches_pt`. -/
def touchesPt (b : BBox (Num α)) (p : Pt (Num α)) : Bool :=
  match b with
  | .none => false
  | .box xl yl xh yh =>
    ((eq p.x xl || eq p.x xh) && lt yl p.y && lt p.y yh) || ((eq p.y yl || eq p.y yh) && lt xl p.x && lt p.x xh)

/-- geom.py:773-778 `touches_side`. -/
def touchesSide (a b : BBox (Num α)) : Bool :=
  match a, b with
  | .box xl yl xh yh, .box xl' yl' xh' yh' =>
    ((eq xh' xl || eq xl' xh) && lt yl yh' && lt yl' yh) || ((eq yh' yl || eq yl' yh) && lt xl xh' && lt xl' xh)
  | _, _ => false

/-- geom.py:780-785 `touches`. -/
def touches (a b : BBox (Num α)) : Bool :=
  match a, b with
  | .box xl yl xh yh, .box xl' yl' xh' yh' =>
    ((eq xh' xl || eq xl' xh) && le yl yh' && le yl' yh) || ((eq yh' yl || eq yl' yh) && le xl xh' && le xl' xh)
  | _, _ => false

/-- geom.py:787-793 `overlaps`. -/
def overlaps (a b : BBox (Num α)) : Except PyErr Bool :=
  match a, b with
  | .box xl yl xh yh, .box xl' yl' xh' yh' => if le xh' xl || le xh xl' || le yh' yl || le yh yl' then .ok false else .ok true
  | _, _ => .error .value

/-- geom.py:795-801 `intersection`. -/
def inter (a b : BBox (Num α)) : BBox (Num α) :=
  match a, b with
  | .box xl yl xh yh, .box xl' yl' xh' yh' =>
    if lt xh' xl || lt xh xl' || lt yh' yl || lt yh yl' then .none
    else mk' (pmax xl xl') (pmax yl yl') (pmin xh xh') (pmin yh yh')
  | _, _ => .none

/-- geom.py:747-750 `transformed`; `f` is the action of the transform on points. -/
def transformed (b : BBox (Num α)) (f : Pt (Num α) → Pt (Num α)) : Except PyErr (BBox (Num α)) :=
  match b with
  | .none => .error .value
  | .box xl yl xh yh => .ok (add (ofPts (f ⟨xl, yl⟩) (f ⟨xl, yh⟩)) (ofPts (f ⟨xh, yh⟩) (f ⟨xh, yl⟩)))

end
end X7.NB
