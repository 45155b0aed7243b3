import Verif.Model.Dump

/-!
Model of `==`: points and vectors (x7/geom/geom.py 89-91, 266-271, 292-295, 436-438, 489-494, 522-527), control points
(x7/geom/bezier.py 35-37), pens (x7/geom/colors.py 38-39, 59-60, 86-87), transforms (x7/geom/transform.py 33-34, 135-137) and elements
(x7/geom/model.py 154-158, 374-375, 567-568, 742-743, 848-854, 1040-1045).

Simplifications: numbers are exact (no NaN). The shortcut of Python's lists and dicts for identical objects is left out: it makes no
difference without NaN.
-/

noncomputable section

open scoped Classical

namespace X7.Dump

/-- geom.py:292-295, 436-438, 489-494, 522-527 `==` of points: the class, the name, then the attributes. -/
def DPt.eqv : DPt → DPt → Bool
  | .point x y n, .point x' y' n' => decide (n = n') && decide (x = x') && decide (y = y')
  | .rel dx dy b n, .rel dx' dy' b' n' => decide (n = n') && decide (dx = dx') && decide (dy = dy') && DPt.eqv b b'
  | .pcalc b s n, .pcalc b' s' n' => decide (n = n') && decide (s = s') && DPt.eqv b b'
  | _, _ => false

/-- geom.py:89-91, 266-271 `==` of vectors. -/
def DVec.eqv : DVec → DVec → Bool
  | .vec x y, .vec x' y' => decide (x = x') && decide (y = y')
  | .rel p q, .rel p' q' => p.eqv p' && q.eqv q'
  | _, _ => false

/-- bezier.py:35-37 `==` of control points. -/
def DCp.eqv (a b : DCp) : Bool := a.c.eqv b.c && a.dl.eqv b.dl && a.dr.eqv b.dr && decide (a.kind = b.kind)

/-- colors.py:38-39 `==` of brushes. -/
def brushEqv (a b : Brush) : Bool := decide (a.color = b.color)

/-- `==` of two values that may be None. -/
def optEqv {α : Type} (f : α → α → Bool) : Option α → Option α → Bool
  | none, none => true
  | some a, some b => f a b
  | _, _ => false

/-- colors.py:59-60 `==` of pens. -/
def penEqv (a b : Pen) : Bool := brushEqv a.brush b.brush && decide (a.width = b.width)

/-- colors.py:86-87 `==` of pen and brush. -/
def pbEqv (a b : PenBrush) : Bool := optEqv penEqv a.pen b.pen && optEqv brushEqv a.brush b.brush

/-- transform.py:33-34, 135-137 `==` of transforms: the nine numbers. -/
def xfEqv (a b : Mat3 ℝ) : Bool :=
  decide (a.a = b.a) && decide (a.b = b.b) && decide (a.c = b.c) && decide (a.d = b.d) && decide (a.e = b.e) && decide (a.f = b.f) &&
    decide (a.g = b.g) && decide (a.h = b.h) && decide (a.i = b.i)

/-- model.py:154-158 `Elem.__eq__`, without the test of the class. -/
def DHdr.eqv (a b : DHdr) : Bool := decide (a.name = b.name) && pbEqv a.pb b.pb && decide (a.closed = b.closed) && xfEqv a.xf b.xf

/-- `==` of lists. -/
def listEqv {α : Type} (f : α → α → Bool) : List α → List α → Bool
  | [], [] => true
  | a :: l, b :: m => f a b && listEqv f l m
  | _, _ => false

/-- `==` of dicts: as many entries, and the other dict has an equal value for every key. -/
def dictEqv {α : Type} (f : α → α → Bool) (d d' : List (Str × α)) : Bool :=
  decide (d.length = d'.length) && d.all fun x =>
    match dget d' x.1 with
    | none => false
    | some y => f x.2 y

mutual
/-- model.py:154-158, 374-375, 567-568, 742-743, 848-854, 1040-1045 `==` of elements. -/
def DElem.eqv : DElem → DElem → Bool
  | .curve h cps, .curve h' cps' => h.eqv h' && listEqv DCp.eqv cps cps'
  | .rect h p q, .rect h' p' q' => h.eqv h' && p.eqv p' && q.eqv q'
  | .rrect h p q r, .rrect h' p' q' r' => h.eqv h' && p.eqv p' && q.eqv q' && decide (r = r')
  | .ellipse h p q, .ellipse h' p' q' => h.eqv h' && p.eqv p' && q.eqv q'
  | .group h hid es ps, .group h' hid' es' ps' =>
    h.eqv h' && decide (hid = hid') && (decide (es.length = es'.length) && eqvAll es es') && dictEqv DPt.eqv ps ps'
  | .holes h o is, .holes h' o' is' => h.eqv h' && o.eqv o' && eqvIn is is'
  | _, _ => false
/-- The values of the dict `elems` against those of the other dict (`dictEqv` spelled out). -/
def eqvAll : List (Str × DElem) → List (Str × DElem) → Bool
  | [], _ => true
  | (k, e) :: rest, d =>
    (match dget d k with
      | none => false
      | some x => e.eqv x) && eqvAll rest d
/-- The list `inside` (`listEqv` spelled out). -/
def eqvIn : List DElem → List DElem → Bool
  | [], [] => true
  | e :: l, f :: m => e.eqv f && eqvIn l m
  | _, _ => false
end

end X7.Dump
