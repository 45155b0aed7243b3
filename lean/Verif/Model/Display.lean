import Verif.Model.Dump

/-!
Model of `display(detail, prefix)`, which prints an element for reading (x7/geom/model.py 533-539, 655-659, 776-781, 805-810, 930-938,
1125-1134, 1318-1321).

What is printed is the list of the strings given to `print`. Simplification: how numbers, points, pens and transforms are written is
left open (`Texts`); names are strings.
-/

noncomputable section

namespace X7.Disp

open Dump

/-- How the values in the printed text are written. -/
structure Texts where
  /-- `str` of a `PenBrush` (colors.py:112-119). -/
  pb : PenBrush → Str
  /-- `str` of a point (geom.py:280-281). -/
  pt : DPt → Str
  /-- `str(p.round(2).xy())`. -/
  xy2 : DPt → Str
  /-- `str(round(r, 2))`. -/
  num2 : ℝ → Str
  /-- `repr` of a control point (bezier.py:32-33). -/
  cp : DCp → Str
  /-- `str` of a transform (transform.py:129-130). -/
  xf : Mat3 ℝ → Str
  /-- `repr` of a string. -/
  quote : Str → Str

variable (T : Texts)

/-- `str` of a bool. -/
def boolText (b : Bool) : Str := if b then "True".toList else "False".toList

/-- model.py:534, 657, 778-779, 807-808, 931, 1126: the first line, without the prefix. -/
def heading : DElem → Str
  | .curve h cps => "ElemCurve: ".toList ++ h.name ++ " ".toList ++ fmtNat cps.length ++ " points".toList
  | .rect h p q => "ElemRectangle: ".toList ++ h.name ++ " ".toList ++ T.xy2 p ++ " ".toList ++ T.xy2 q
  | .rrect h p q r =>
    "ElemRectangleRounded: ".toList ++ h.name ++ " ".toList ++ T.xy2 p ++ " ".toList ++ T.xy2 q ++ " ".toList ++ T.num2 r
  | .ellipse h p q => "ElemEllipse: ".toList ++ h.name ++ " ".toList ++ T.xy2 p ++ " ".toList ++ T.xy2 q
  | .group h hidden _ _ =>
    "ElemGroup: ".toList ++ T.quote h.name ++ " ".toList ++ (if hidden then "hidden".toList else "visible".toList)
  | .holes h _ _ => "ElemWithHoles: ".toList ++ T.quote h.name

/-- model.py:536-537, 658-659, 780-781, 809-810 the line printed if `detail` is true. -/
def penLine (pre : Str) (h : DHdr) : Str := pre ++ " closed=".toList ++ boolText h.closed ++ " pen=".toList ++ T.pb h.pb

/-- model.py:933-934, 1128-1129 the line for a transform other than the identity. -/
def xfLines (pre : Str) (h : DHdr) : List Str := if h.xf ≠ Mat3.one then [pre ++ "Transform: ".toList ++ T.xf h.xf] else []

/-- `sorted(d.items())` of a dict: its keys are different, so only they are compared. -/
def byKey {α : Type} (d : List (Str × α)) : List (Str × α) := d.mergeSort fun x y => decide (x.1 ≤ y.1)

/-- model.py:935-936 the lines for the points of a group. -/
def pointLines (pre : Str) (points : List (Str × DPt)) : List Str :=
  (byKey points).map fun kv => pre ++ "Point: ".toList ++ kv.1 ++ " ".toList ++ T.pt kv.2

mutual
/-- model.py:533-539, 655-659, 776-781, 805-810, 930-938, 1125-1134 `display(detail, prefix)`. The texts of the elements of a group are
made in the order of the dict and put in the order of the keys. -/
def display (detail : Bool) (pre : Str) : DElem → List Str
  | .curve h cps =>
    (pre ++ heading T (.curve h cps)) ::
      if detail then penLine T pre h :: cps.map fun cp => pre ++ "  ".toList ++ T.cp cp else []
  | .rect h p q => (pre ++ heading T (.rect h p q)) :: if detail then [penLine T pre h] else []
  | .rrect h p q r => (pre ++ heading T (.rrect h p q r)) :: if detail then [penLine T pre h] else []
  | .ellipse h p q => (pre ++ heading T (.ellipse h p q)) :: if detail then [penLine T pre h] else []
  | .group h hidden elems points =>
    (pre ++ heading T (.group h hidden elems points)) :: (xfLines T (pre ++ "  ".toList) h ++
      (pointLines T (pre ++ "  ".toList) points ++
        (byKey (displayAll detail (pre ++ "  ".toList) elems)).flatMap Prod.snd))
  | .holes h outside inside =>
    (pre ++ heading T (.holes h outside inside)) :: (xfLines T (pre ++ "  ".toList) h ++
      ((pre ++ "  ".toList ++ "Outside:".toList) :: (display detail (pre ++ "  ".toList ++ "  ".toList) outside ++
        ((pre ++ "  ".toList ++ "Outside:".toList) :: displayIn detail (pre ++ "  ".toList ++ "  ".toList) inside))))
/-- model.py:937-938 the texts of the entries of a group. -/
def displayAll (detail : Bool) (pre : Str) : List (Str × DElem) → List (Str × List Str)
  | [] => []
  | (k, e) :: rest => (k, display detail pre e) :: displayAll detail pre rest
/-- model.py:1133-1134 the loop over the holes. -/
def displayIn (detail : Bool) (pre : Str) : List DElem → List Str
  | [] => []
  | e :: rest => display detail pre e ++ displayIn detail pre rest
end

/-- model.py:1318-1321 `GroupBuilder.display(detail, prefix)`; `name` is the name of the builder. -/
def displayBuilder (detail : Bool) (pre : Str) (name : Str) (the_group : DElem) : List Str :=
  (pre ++ "GroupBuilder: ".toList ++ name) :: display T detail (pre ++ "  ".toList) the_group

end X7.Disp
