import Verif.Model.Draw
import Verif.Spec.Elem

/-!
What drawing should put on the canvas.
-/

noncomputable section

namespace X7

/-- `n` is `x` rounded to an integer, ties to even. -/
def IsRound (x : ℝ) (n : ℤ) : Prop := |x - n| ≤ 1 / 2 ∧ (|x - n| = 1 / 2 → Even n)

namespace Elem

/-- The width a pen asks for under the matrix `m`: positive widths are pixels, others are scaled with the mean of the lengths
of the images of the two unit vectors. -/
def askedWidth (m : Mat3 ℝ) (pen : Pen) : ℝ :=
  if 0 < pen.width then pen.width
  else -pen.width * ((Real.sqrt (m.a ^ 2 + m.d ^ 2) + Real.sqrt (m.b ^ 2 + m.e ^ 2)) / 2)

/-- The width drawn: 1 in draft mode, otherwise the width asked for rounded to whole pixels, at least 1. -/
def IsWidth (prod : Bool) (m : Mat3 ℝ) (pen : Pen) (w : ℤ) : Prop :=
  if prod then ∃ n, IsRound (askedWidth m pen) n ∧ w = max 1 n else w = 1

/-- The colour of an area: the shadow colour if there is one and the area is not transparent. -/
def areaColor (shadow : Option Color) (c : Color) : Color :=
  match shadow with
  | none => c
  | some s => if s.truthy ∧ c ≠ .tup [0, 0, 0, 0] then s else c

/-- What one path becomes on the canvas: an area if it has a brush, then a line if it has a pen (around the area and back to its
start if there is an area, along the path otherwise). A path with neither still gets a line, without colour. -/
inductive Paints (prod : Bool) (shadow : Option Color) (m : Mat3 ℝ) : Path → List DrawOp → Prop
  | stroke (pen : Pen) (closed : Bool) (pts : List (Pt ℝ)) (w : ℤ) : IsWidth prod m pen w →
      Paints prod shadow m ⟨⟨some pen, none⟩, closed, pts⟩ [.line pts (some pen.brush.color) w true]
  | fill (b : Brush) (closed : Bool) (pts : List (Pt ℝ)) :
      Paints prod shadow m ⟨⟨none, some b⟩, closed, pts⟩ [.polygon pts (some (areaColor shadow b.color))]
  | both (pen : Pen) (b : Brush) (closed : Bool) (p : Pt ℝ) (pts : List (Pt ℝ)) (w : ℤ) : IsWidth prod m pen w →
      Paints prod shadow m ⟨⟨some pen, some b⟩, closed, p :: pts⟩
        [.polygon (p :: pts) (some (areaColor shadow b.color)), .line (p :: pts ++ [p]) (some pen.brush.color) w true]
  | neither (closed : Bool) (pts : List (Pt ℝ)) :
      Paints prod shadow m ⟨⟨none, none⟩, closed, pts⟩ [.line pts none 1 true]

/-- The square marker of half width 5 around `p`, corners in the order in which the code gives them. -/
def marker (p : Pt ℝ) : DrawOp := .rectangle ⟨p.x + 5, p.y + 5⟩ ⟨p.x - 5, p.y - 5⟩ (some (.name "red")) (some (.name "grey"))

/-- The round marker of radius 5 around `p`. -/
def knob (p : Pt ℝ) : DrawOp := .ellipse ⟨p.x - 5, p.y - 5⟩ ⟨p.x + 5, p.y + 5⟩ (some (.name "red")) (some (.name "grey"))

mutual
/-- Every pen of a tree that is drawn with has the property `P` (a shape with holes draws with its own pen). -/
def Pens (P : Pen → Prop) : Elem → Prop
  | .curve h _ => ∀ p, h.pb.pen = some p → P p
  | .rect h _ _ => ∀ p, h.pb.pen = some p → P p
  | .rrect h _ _ _ => ∀ p, h.pb.pen = some p → P p
  | .ellipse h _ _ => ∀ p, h.pb.pen = some p → P p
  | .group _ _ es => PensAll P es
  | .holes h _ _ => ∀ p, h.pb.pen = some p → P p
def PensAll (P : Pen → Prop) : List (Str × Elem) → Prop
  | [] => True
  | (_, e) :: rest => Pens P e ∧ PensAll P rest
end

/-- The dots put on the points of a path in debugging mode (the default): circles as wide as the pen if it is wider than 4
pixels, with a red border in draft mode. -/
def IsDots (debug prod : Bool) (m : Mat3 ℝ) (p : Path) (ds : List DrawOp) : Prop :=
  match debug, p.pb.pen with
  | true, some pen => ∃ n, IsRound (askedWidth m pen) n ∧ ds = if 4 < n then p.pts.map fun q =>
      .ellipse ⟨q.x - (n : ℝ) / 2, q.y - (n : ℝ) / 2⟩ ⟨q.x + (n : ℝ) / 2, q.y + (n : ℝ) / 2⟩
        (if prod then none else some (.name "red")) (some pen.brush.color) else []
  | _, _ => ds = []

mutual
/-- The basic shapes of a tree that are shown, in order, each with the transforms around it from the outside in; the parts of a
shape with holes count each (outside first). -/
def shownParts : Elem → List (List (Mat3 ℝ) × Elem)
  | .curve h cps => [([], .curve h cps)]
  | .rect h p1 p2 => [([], .rect h p1 p2)]
  | .rrect h p1 p2 r => [([], .rrect h p1 p2 r)]
  | .ellipse h p1 p2 => [([], .ellipse h p1 p2)]
  | .group h hidden es => if hidden then [] else (shownPartsAll es).map fun x => (h.xf :: x.1, x.2)
  | .holes h o i => (shownParts o ++ shownPartsIn i).map fun x => (h.xf :: x.1, x.2)
def shownPartsAll : List (Str × Elem) → List (List (Mat3 ℝ) × Elem)
  | [] => []
  | (_, e) :: rest => shownParts e ++ shownPartsAll rest
def shownPartsIn : List Elem → List (List (Mat3 ℝ) × Elem)
  | [] => []
  | e :: rest => shownParts e ++ shownPartsIn rest
end

/-- The control points of a basic shape in its own coordinates: the corners of a rectangle, otherwise the control points of its
curve. -/
def ownControl : Elem → Except PyErr (List CEntry)
  | .curve _ cps => .ok (cps.map .cp)
  | .rect _ p1 p2 => .ok [.pt p1, .pt ⟨p1.x, p2.y⟩, .pt p2, .pt ⟨p2.x, p1.y⟩]
  | .rrect _ p1 p2 r => (makeRoundedRect p1 p2 r).map fun cps => cps.map .cp
  | .ellipse _ p1 p2 => (makeEllipseP1P2 p1 p2).map fun cps => cps.map .cp
  | .group _ _ _ => .error .notImplemented
  | .holes _ _ _ => .error .notImplemented

/-- `b` is the entry `a` carried along by the map `f`: the point, or the end point and both handle ends; the kind is kept. -/
def Carried (f : Pt ℝ → Pt ℝ) : CEntry → CEntry → Prop
  | .pt p, .pt q => q = f p
  | .cp a, .cp b => b.c = f a.c ∧ b.l = f a.l ∧ b.r = f a.r ∧ b.kind = a.kind
  | _, _ => False

end Elem
end X7
