import Verif.Model.Dump
import Verif.Spec.Dump
import Verif.Model.Round
import Verif.Model.BBox

/-!
Model of the printed forms that `dump` does not use: `repr` of lines, boxes, matrices and `PensByShape`, and `str` of points, vectors,
control points, lines, boxes, transforms, pens and elements (x7/geom/geom.py 78-79, 226-227, 280-281, 605-609, 824-828;
transform.py 27-31, 129-130; bezier.py 29-30; colors.py 41-42, 62-63, 112-119, 222-226; model.py 368-369, 561-562, 736-737, 841-842,
1026-1031). Text is a list of tokens as in Model/Dump.lean.
Simplification: numbers are exact, and the built-in `round` is `roundTo` of Model/Round.lean.
-/

noncomputable section

namespace X7.Dump

/-- geom.py:815-822 `Line`: an origin and a direction. -/
structure DLine where
  origin : DPt
  direction : DVec

/-- geom.py:827-828 `repr` of a line. -/
def reprLine (l : DLine) : List Tok := opens "Line" ++ reprPt l.origin ++ [.comma] ++ reprVec l.direction ++ [.rp]

/-- The four values of `as_tuple()` (geom.py 801-803), as they are written. -/
def boxToks : BBox ℝ → List Tok × List Tok × List Tok × List Tok
  | .none => ([.id "None".toList], [.id "None".toList], [.id "None".toList], [.id "None".toList])
  | .box a b c d => ([.num a], [.num b], [.num c], [.num d])

/-- geom.py:608-609 `repr` of a box. -/
def reprBox (b : BBox ℝ) : List Tok :=
  opens "BBox" ++ [.id "xl".toList, .eq] ++ (boxToks b).1 ++ [.comma, .id "yl".toList, .eq] ++ (boxToks b).2.1 ++
    [.comma, .id "xh".toList, .eq] ++ (boxToks b).2.2.1 ++ [.comma, .id "yh".toList, .eq] ++ (boxToks b).2.2.2 ++ [.rp]

/-- geom.py:605-606 `str` of a box. -/
def strBox (b : BBox ℝ) : List Tok :=
  .lp :: (boxToks b).1 ++ [.comma] ++ (boxToks b).2.1 ++ [.comma] ++ (boxToks b).2.2.1 ++ [.comma] ++ (boxToks b).2.2.2 ++ [.rp]

/-- A tuple of three numbers. -/
def row3 (a b c : ℝ) : List Tok := [.lp, .num a, .comma, .num b, .comma, .num c, .rp]

/-- transform.py:30-31 `repr` of a matrix. -/
def reprMat (m : Mat3 ℝ) : List Tok :=
  opens "Transform" ++ [.lp] ++ row3 m.a m.b m.c ++ [.comma] ++ row3 m.d m.e m.f ++ [.comma] ++ row3 m.g m.h m.i ++ [.rp, .rp]

/-- transform.py:27-28 `str` of a matrix: entries rounded to two digits. -/
def strMat (m : Mat3 ℝ) : List Tok :=
  [.lp] ++ row3 (roundTo 2 m.a) (roundTo 2 m.b) (roundTo 2 m.c) ++ [.comma] ++
    row3 (roundTo 2 m.d) (roundTo 2 m.e) (roundTo 2 m.f) ++ [.comma] ++
    row3 (roundTo 2 m.g) (roundTo 2 m.h) (roundTo 2 m.i) ++ [.rp]

/-- transform.py:129-130 `str` of a transform: the first two rows, rounded to two digits. -/
def strXf (m : Mat3 ℝ) : List Tok :=
  [.lp, .num (roundTo 2 m.a), .comma, .num (roundTo 2 m.b), .comma, .num (roundTo 2 m.c), .comma, .num (roundTo 2 m.d), .comma,
    .num (roundTo 2 m.e), .comma, .num (roundTo 2 m.f), .rp]

/-- colors.py:225-226 `repr` of a `PensByShape`. -/
def reprPens (s : ByShape PenBrush) : List Tok :=
  opens "PensByShape" ++ [.id "edge".toList, .eq] ++ reprPB s.edge ++ [.comma, .id "filled".toList, .eq] ++ reprPB s.filled ++
    [.comma, .id "clear".toList, .eq] ++ reprPB s.clear ++ [.comma, .id "edge_filled".toList, .eq] ++ reprPB s.edge_filled ++
    [.comma, .id "edge_clear".toList, .eq] ++ reprPB s.edge_clear ++ [.rp]

/-- `str` of a colour: names without quotes. -/
def strColor : Color → List Tok
  | .name s => [.id s.toList]
  | c => reprColor c

/-- colors.py:112-119 `str` of a `PenBrush`. -/
def strPB (pb : PenBrush) : List Tok :=
  opens "PenBrush" ++
    (match pb.pen with
      | none => [.id "None".toList]
      | some p => if p.width = 1 then strColor p.brush.color else .lp :: strColor p.brush.color ++ [.comma, .num p.width, .rp]) ++
    [.comma] ++ (match pb.brush with | none => [.id "None".toList] | some b => strColor b.color) ++ [.rp]

/-- geom.py:304-308, 440-444 `round(n)` of a point: other than plain points go through `fixed()`. -/
def roundPt (n : ℤ) : DPt → DPt
  | .point x y nm => .point (roundTo n x) (roundTo n y) nm
  | p => .point (roundTo n p.fixed.xy.1) (roundTo n p.fixed.xy.2) p.fixed.name

/-- geom.py:103-107, 239-243 `round(n)` of a vector. -/
def roundVec (n : ℤ) : DVec → DVec
  | .vec x y => .vec (roundTo n x) (roundTo n y)
  | .rel p q => .rel (roundPt n p) (roundPt n q)

/-- geom.py:280-281 `str` of a point. -/
def strPt (p : DPt) : List Tok := [.lp, .num p.xy.1, .comma, .num p.xy.2, .rp]

/-- geom.py:78-79, 226-227 `str` of a vector. -/
def strVec : DVec → List Tok
  | .vec x y => [.id "V".toList, .lp, .num x, .comma, .num y, .rp]
  | .rel p q => [.id "V".toList, .lp] ++ strPt p ++ [.id "-".toList] ++ strPt q ++ [.rp]

/-- geom.py:824-825 `str` of a line. -/
def strLine (l : DLine) : List Tok := strPt (roundPt 2 l.origin) ++ [.id "@".toList] ++ strVec (roundVec 2 l.direction)

/-- bezier.py:29-30 `str` of a control point. -/
def strCp (c : DCp) : List Tok :=
  [.lp] ++ reprPt c.c ++ [.comma] ++ reprVec c.dl ++ [.comma] ++ reprVec c.dr ++ [.comma, .str c.kind, .rp]

/-- bezier.py:94-96 `round(n)` of a control point. -/
def roundCp (n : ℤ) (c : DCp) : DCp := ⟨roundPt n c.c, roundVec n c.dl, roundVec n c.dr, c.kind⟩

/-- The name of the class of an element. -/
def DElem.cls : DElem → String
  | .curve _ _ => "ElemCurve"
  | .rect _ _ _ => "ElemRectangle"
  | .rrect _ _ _ _ => "ElemRectangleRounded"
  | .ellipse _ _ _ => "ElemEllipse"
  | .group _ _ _ _ => "Group"
  | .holes _ _ _ => "ElemWithHoles"

/-- model.py:368-369, 561-562, 736-737, 841-842, 1026-1031 `str` of an element. -/
def strElem : DElem → List Tok
  | .curve h cps => opens "ElemCurve" ++ [.str h.name, .comma] ++ joinComma (cps.map fun c => strCp (roundCp 2 c)) ++ [.rp]
  | .rect h p q => reprElem (.rect h p q)
  | .rrect h p q r => reprElem (.rrect h p q r)
  | .ellipse h p q => reprElem (.ellipse h p q)
  | .group h _ elems points =>
    opens "Group" ++ [.id h.name, .comma, .int elems.length, .id "elems".toList, .comma, .int points.length, .id "points".toList, .rp]
  | .holes h o is =>
    opens "ElemWithHoles" ++ [.id h.name, .comma, .id o.cls.toList, .comma, .lb] ++
      joinComma (is.map fun e => [.id e.cls.toList]) ++ [.rb, .rp]

end X7.Dump
