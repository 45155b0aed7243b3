import Verif.Model.BoxUpdate

/-!
Model of rectangles, rounded rectangles and ellipses as objects which hold two points and a transform (x7/geom/model.py `ElemP1P2`
552-630, `ElemRectangle` 633-666, `ElemRectangleRounded` 728-785, `ElemEllipse` 788-815), and of the points which they give out
(`points`, `as_digi_points`): which objects each method makes, reads and writes.

A reference is the index of the object among the objects of its class; objects are only ever appended. Points are plain and without
names (relative points and names are in Model/PointHeap and Model/ElemHeap). `closed` is always True (the constructors assert it, and
`restore` takes it from another shape), so it is left out. Transform objects are represented by their matrices. Objects which a call has
made and dropped are not represented.
-/

noncomputable section

namespace X7.SH

/-- The classes derived from `ElemP1P2`; only a rounded rectangle has a radius. -/
inductive Cls
  | rect
  | ellipse
  | rounded (radius : ℝ)

/-- model.py:138-144, 554-559, 730-734 a shape. -/
structure Shape where
  name : Str
  pb : PenBrush
  xf : ℕ
  cls : Cls
  p1 : ℕ
  p2 : ℕ

/-- All objects; `given` are the lists of points which the program got from `points()` and `as_digi_points()` (the centres). -/
structure World where
  pts : List (Pt ℝ)
  xfs : List (Mat3 ℝ)
  shapes : List Shape
  given : List (List ℕ)

/-- No objects. -/
def World.empty : World := ⟨[], [], [], []⟩

/-- A shape as a value. -/
def elemOf (cls : Cls) (h : Hdr) (p1 p2 : Pt ℝ) : Elem :=
  match cls with
  | .rect => .rect h p1 p2
  | .ellipse => .ellipse h p1 p2
  | .rounded r => .rrect h p1 p2 r

/-- The present value of shape `k`. -/
def val (w : World) (k : ℕ) : Option Elem :=
  match w.shapes[k]? with
  | some s =>
    match w.xfs[s.xf]?, w.pts[s.p1]?, w.pts[s.p2]? with
    | some m, some p1, some p2 => some (elemOf s.cls ⟨s.name, s.pb, true, m⟩ p1 p2)
    | _, _, _ => none
  | none => none

/-- model.py:554-559, 730-734 the constructors, given the coordinates of `p1` and `p2`: `p1.fixed()` and `p2.fixed()` are new points. -/
def newShape (w : World) (name : Str) (pb : PenBrush) (xf : ℕ) (cls : Cls) (p1 p2 : Pt ℝ) : World :=
  { w with pts := w.pts ++ [p1, p2], shapes := w.shapes ++ [⟨name, pb, xf, cls, w.pts.length, w.pts.length + 1⟩] }

/-- model.py:141-142, 554-559 `ElemRectangle(name, penbrush, p1, p2, xform=..)` and the like for points `i` and `j`. Without `xform`
there is a new transform; with the transform of another shape that object is taken. -/
def make (w : World) (name : Str) (pb : PenBrush) (cls : Cls) (i j : ℕ) (xf : Option ℕ) : World × Option PyErr :=
  match w.pts[i]?, w.pts[j]? with
  | some p1, some p2 =>
    match xf with
    | none => (newShape { w with xfs := w.xfs ++ [Mat3.one] } name pb w.xfs.length cls p1 p2, none)
    | some k =>
      match w.shapes[k]? with
      | some s => (newShape w name pb s.xf cls p1 p2, none)
      | none => (w, some .attribute)
  | _, _ => (w, some .attribute)

/-- model.py:579-583, 745-749 `shape.copy()`: the transform object is passed on. -/
def copy (w : World) (k : ℕ) : World × Option PyErr :=
  match w.shapes[k]? with
  | some s =>
    match w.pts[s.p1]?, w.pts[s.p2]? with
    | some p1, some p2 => (newShape w s.name s.pb s.xf s.cls p1 p2, none)
    | _, _ => (w, some .attribute)
  | none => (w, some .attribute)

/-- model.py:756 `self.radius = other.radius`: only `ElemRectangleRounded.restore` does this, and only a rounded rectangle has one. -/
def restoreCls (c d : Cls) : Except PyErr Cls :=
  match c, d with
  | .rounded _, .rounded r => .ok (.rounded r)
  | .rounded _, _ => .error .attribute
  | c, _ => .ok c

/-- model.py:174-179, 585-589, 751-756 `shape.restore(other)`: a copy of the transform; the coordinates of the points are written into the
points of the shape; the radius comes last, so everything else is changed when it raises. -/
def restore (w : World) (k m : ℕ) : World × Option PyErr :=
  match w.shapes[k]?, w.shapes[m]? with
  | some s, some o =>
    match w.xfs[o.xf]?, w.pts[o.p1]?, w.pts[o.p2]? with
    | some x, some q1, some q2 =>
      let w1 : World := { w with xfs := w.xfs ++ [x], pts := (w.pts.set s.p1 q1).set s.p2 q2 }
      match restoreCls s.cls o.cls with
      | .ok c => ({ w1 with shapes := w.shapes.set k ⟨o.name, o.pb, w.xfs.length, c, s.p1, s.p2⟩ }, none)
      | .error e => ({ w1 with shapes := w.shapes.set k ⟨o.name, o.pb, w.xfs.length, s.cls, s.p1, s.p2⟩ }, some e)
    | _, _, _ => (w, some .attribute)
  | _, _ => (w, some .attribute)

/-- model.py:591-601, 758-762 `shape.transform(matrix)`: a new shape with a new transform. The matrix is not one of the objects here. -/
def transform (w : World) (k : ℕ) (m : TState) : World × Option PyErr :=
  match w.shapes[k]?, val w k with
  | some s, some e =>
    match (e.transform m).2 with
    | .ok (.rect h q1 q2) => (newShape { w with xfs := w.xfs ++ [h.xf] } s.name s.pb w.xfs.length .rect q1 q2, none)
    | .ok (.ellipse h q1 q2) => (newShape { w with xfs := w.xfs ++ [h.xf] } s.name s.pb w.xfs.length .ellipse q1 q2, none)
    | .ok (.rrect h q1 q2 r) => (newShape { w with xfs := w.xfs ++ [h.xf] } s.name s.pb w.xfs.length (.rounded r) q1 q2, none)
    | .ok _ => (w, some .attribute)
    | .error e => (w, some e)
  | _, _ => (w, some .attribute)

/-- model.py:574-577 `shape.bbox_int_update(bbox)`: the corners of the box are written into the points of the shape. -/
def update (w : World) (k : ℕ) (b : BBox ℝ) : World × Option PyErr :=
  match w.shapes[k]? with
  | some s =>
    match b with
    | .none => (w, some .value)
    | .box xl yl xh yh => ({ w with pts := (w.pts.set s.p1 ⟨xl, yl⟩).set s.p2 ⟨xh, yh⟩ }, none)
  | none => (w, some .attribute)

/-- model.py:603-610 `shape.points()`: the two points of the shape themselves and two new points. -/
def points (w : World) (k : ℕ) : World × Option PyErr :=
  match w.shapes[k]? with
  | some s =>
    match w.pts[s.p1]?, w.pts[s.p2]? with
    | some a, some b =>
      ({ w with pts := w.pts ++ [⟨a.x, b.y⟩, ⟨b.x, a.y⟩],
                given := w.given ++ [[s.p1, w.pts.length, s.p2, w.pts.length + 1]] }, none)
    | _, _ => (w, some .attribute)
  | none => (w, some .attribute)

/-- model.py:629-630, 664-666, 764-765, 793-794 `shape.as_digi_points()`: the control points of a rectangle have the points of `points()`
as centres; those of the other shapes are new. -/
def digi (w : World) (k : ℕ) : World × Option PyErr :=
  match w.shapes[k]? with
  | some s =>
    match s.cls with
    | .rect => points w k
    | _ =>
      match val w k with
      | some e =>
        match e.asDigi with
        | .ok cps => ({ w with pts := w.pts ++ cps.map (·.c),
                               given := w.given ++ [(List.range cps.length).map (w.pts.length + ·)] }, none)
        | .error e => (w, some e)
      | none => (w, some .attribute)
  | none => (w, some .attribute)

/-- The calls of a program. -/
inductive Op
  | mkPt (p : Pt ℝ)                                                                   -- geom.py:431-434
  | movePt (i : ℕ) (p : Pt ℝ)                                                         -- geom.py:466-476 `set`, `restore`, `setxy`
  | make (name : Str) (pb : PenBrush) (cls : Cls) (i j : ℕ) (xf : Option ℕ)           -- model.py:554-559, 730-734
  | setXf (k : ℕ) (m : Mat3 ℝ)                                                        -- `shape.xform.translate(..)` and the like
  | copy (k : ℕ)
  | restore (k m : ℕ)
  | transform (k : ℕ) (m : TState)
  | update (k : ℕ) (b : BBox ℝ)
  | points (k : ℕ)
  | digi (k : ℕ)

/-- One call: the objects afterwards and the exception raised, if any. -/
def step (w : World) : Op → World × Option PyErr
  | .mkPt p => ({ w with pts := w.pts ++ [p] }, none)
  | .movePt i p => if i < w.pts.length then ({ w with pts := w.pts.set i p }, none) else (w, some .attribute)
  | .make name pb cls i j xf => make w name pb cls i j xf
  | .setXf k m =>
    match w.shapes[k]? with
    | some s => ({ w with xfs := w.xfs.set s.xf m }, none)
    | none => (w, some .attribute)
  | .copy k => copy w k
  | .restore k m => restore w k m
  | .transform k m => transform w k m
  | .update k b => update w k b
  | .points k => points w k
  | .digi k => digi w k

/-- A history of calls; exceptions are caught by the caller. -/
def run (w : World) (ops : List Op) : World := ops.foldl (fun w o => (step w o).1) w

end X7.SH
