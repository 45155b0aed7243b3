import Verif.Model.Offset

/-!
Model of curves as objects which hold control point objects which hold points and vectors (x7/geom/model.py `ElemCurve`
363-504, x7/geom/bezier.py `ControlPoint` 23-106 and `bez_split` 633-651): which objects each method makes, reads and writes.

A reference is the index of the object among the objects of its class; objects are only ever appended. Points and vectors are
plain and without names (see Model/PointHeap and Model/ElemHeap for relative points and names). `control_points` is a list
which no two curves share (the constructor copies it, model.py:366), so it is a value; the control points in it are
references. Transform objects are represented by their matrices.
-/

noncomputable section

namespace X7.CH

/-- bezier.py:23-27 a `ControlPoint` object. -/
structure CpObj where
  c : ℕ
  dl : ℕ
  dr : ℕ
  kind : String

/-- model.py:138-144, 363-366 an `ElemCurve` object. -/
structure CurveObj where
  name : Str
  pb : PenBrush
  closed : Bool
  xf : ℕ
  cps : List ℕ

/-- All objects. -/
structure Heap where
  xfs : List (Mat3 ℝ)
  pts : List (Pt ℝ)
  vecs : List (Vec ℝ)
  cps : List CpObj
  curves : List CurveObj

/-- No objects. -/
def Heap.empty : Heap := ⟨[], [], [], [], []⟩

/-- The present value of a control point object. -/
def readCp (h : Heap) (i : ℕ) : Option (CP ℝ) :=
  match h.cps[i]? with
  | some o =>
    match h.pts[o.c]?, h.vecs[o.dl]?, h.vecs[o.dr]? with
    | some c, some dl, some dr => some ⟨c, dl, dr, o.kind⟩
    | _, _, _ => none
  | none => none

/-- The present values of a list of control point objects. -/
def readCps (h : Heap) : List ℕ → Option (List (CP ℝ))
  | [] => some []
  | i :: is =>
    match readCp h i, readCps h is with
    | some v, some vs => some (v :: vs)
    | _, _ => none

/-- bezier.py:23-27 `ControlPoint(Point(..), Vector(..), Vector(..), kind)`: four new objects. -/
def newCp (h : Heap) (v : CP ℝ) : Heap × ℕ :=
  ({ h with pts := h.pts ++ [v.c], vecs := h.vecs ++ [v.dl, v.dr],
            cps := h.cps ++ [⟨h.pts.length, h.vecs.length, h.vecs.length + 1, v.kind⟩] }, h.cps.length)

/-- A list of new control points with new points and vectors. -/
def newCps (h : Heap) : List (CP ℝ) → Heap × List ℕ
  | [] => (h, [])
  | v :: vs =>
    let (h1, i) := newCp h v
    let (h2, is) := newCps h1 vs
    (h2, i :: is)

/-- A new transform object. -/
def newXf (h : Heap) (m : Mat3 ℝ) : Heap × ℕ := ({ h with xfs := h.xfs ++ [m] }, h.xfs.length)

/-- model.py:138-144, 363-366 `ElemCurve(name, penbrush, cps, closed, xform)` with a given transform object. -/
def newCurve (h : Heap) (c : CurveObj) : Heap × Option PyErr :=
  if c.pb.filled && !c.closed then (h, some .assertion)
  else ({ h with curves := h.curves ++ [c] }, none)

/-- model.py:138-144, 363-366 `ElemCurve(name, penbrush, cps, closed, xform)` with a new transform object, which is forgotten
if the constructor raises. -/
def newCurveXf (h : Heap) (name : Str) (pb : PenBrush) (closed : Bool) (m : Mat3 ℝ) (cps : List ℕ) : Heap × Option PyErr :=
  if pb.filled && !closed then (h, some .assertion)
  else
    let (h1, x) := newXf h m
    ({ h1 with curves := h1.curves ++ [⟨name, pb, closed, x, cps⟩] }, none)

/-- bezier.py:633-651 `bez_split(cp1, cp2)` with `t = 0.5`: the first result holds the centre and left handle objects of `cp1`, the
last one the centre and right handle objects of `cp2`; everything else is new. -/
def splitCp (h : Heap) (i j : ℕ) : Option (Heap × ℕ × ℕ × ℕ) :=
  match h.cps[i]?, h.cps[j]?, readCp h i, readCp h j with
  | some o1, some o2, some v1, some v2 =>
    let s := bezSplit v1 v2 (1 / 2)
    let n := h.vecs.length
    let k := h.cps.length
    some ({ h with
      pts := h.pts ++ [s.2.1.c]
      vecs := h.vecs ++ [s.1.dr, s.2.1.dl, s.2.1.dr, s.2.2.dl]
      cps := h.cps ++ [⟨o1.c, o1.dl, n, s.1.kind⟩, ⟨h.pts.length, n + 1, n + 2, s.2.1.kind⟩, ⟨o2.c, n + 3, o2.dr, s.2.2.kind⟩] },
      k, k + 1, k + 2)
  | _, _, _, _ => none

/-- bezier.py:69-74 `cp.restore(copy)`: copies of the three objects of `copy` are put into `cp`. -/
def restoreCp (h : Heap) (i j : ℕ) : Option Heap :=
  match h.cps[i]?, readCp h j with
  | some _, some v =>
    some { h with pts := h.pts ++ [v.c], vecs := h.vecs ++ [v.dl, v.dr],
                  cps := h.cps.set i ⟨h.pts.length, h.vecs.length, h.vecs.length + 1, v.kind⟩ }
  | _, _ => none

/-- model.py:391-392 the loop of `ElemCurve.restore`. -/
def restoreCps (h : Heap) : List ℕ → List ℕ → Option Heap
  | i :: is, j :: js =>
    match restoreCp h i j with
    | some h1 => restoreCps h1 is js
    | none => none
  | _, _ => some h

/-- model.py:377-385 `curve.copy()`, which is `fixed()`: new control points, points and vectors, the same transform object. -/
def copy (h : Heap) (i : ℕ) : Heap × Option PyErr :=
  match h.curves[i]? with
  | some c =>
    match readCps h c.cps with
    | some vs =>
      let (h1, is) := newCps h vs
      newCurve h1 { c with cps := is }
    | none => (h, some .attribute)
  | none => (h, some .attribute)

/-- model.py:487-504 `curve.add_one()`. -/
def addOne (h : Heap) (i : ℕ) : Heap × Option PyErr :=
  match h.curves[i]? with
  | some c =>
    match readCps h c.cps with
    | some vs =>
      match lastMax ((iterRotate2 vs).map fun ab => (ab.1.c.sub ab.2.c).length) with
      | none => (h, some .index)
      | some idx =>
        let left := idx % c.cps.length
        let right := (left + 1) % c.cps.length
        match c.cps[left]?, c.cps[right]? with
        | some p, some q =>
          match splitCp h p q with
          | some (h1, l, m, r) =>
            match restoreCp h1 p l with
            | some h2 =>
              match restoreCp h2 q r with
              | some h3 => ({ h3 with curves := h3.curves.set i { c with cps := c.cps.insertIdx right m } }, none)
              | none => (h2, some .attribute)
            | none => (h1, some .attribute)
          | none => (h, some .attribute)
        | _, _ => (h, some .index)
    | none => (h, some .attribute)
  | none => (h, some .attribute)

/-- model.py:174-179, 387-395 `curve.restore(other)`: name, pen, closed and a copy of the transform are taken over before the
numbers of control points are compared. -/
def restore (h : Heap) (i j : ℕ) : Heap × Option PyErr :=
  match h.curves[i]?, h.curves[j]? with
  | some c, some d =>
    match h.xfs[d.xf]? with
    | some m =>
      let (h1, x) := newXf h m
      let h2 := { h1 with curves := h1.curves.set i ⟨d.name, d.pb, d.closed, x, c.cps⟩ }
      if c.cps.length = d.cps.length then
        match restoreCps h2 c.cps d.cps with
        | some h3 => (h3, none)
        | none => (h2, some .attribute)
      else (h2, some .geomInternal)
    | none => (h, some .attribute)
  | _, _ => (h, some .attribute)

/-- model.py:400-406 `curve.transform(matrix)`: new control points under the product of the matrix and the transform of the curve; a
new transform. -/
def transform (h : Heap) (i : ℕ) (m : Mat3 ℝ) : Heap × Option PyErr :=
  match h.curves[i]? with
  | some c =>
    match h.xfs[c.xf]?, readCps h c.cps with
    | some x, some vs =>
      let (h1, is) := newCps h (vs.map fun v => v.transformLin (m.mul x).apply)
      newCurveXf h1 c.name c.pb c.closed Mat3.one is
    | _, _ => (h, some .attribute)
  | none => (h, some .attribute)

/-- bezier.py:46-48 `cp.reversed()`: a new control point which holds the same centre and handle objects. -/
def reverseCp (h : Heap) (i : ℕ) : Option (Heap × ℕ) :=
  match h.cps[i]? with
  | some o => some ({ h with cps := h.cps ++ [⟨o.c, o.dr, o.dl, o.kind⟩] }, h.cps.length)
  | none => none

/-- bezier.py:50-53 the list comprehension of `reverse_list`; the argument is the reversed list. -/
def reverseCps (h : Heap) : List ℕ → Option (Heap × List ℕ)
  | [] => some (h, [])
  | i :: is =>
    match reverseCp h i with
    | some (h1, j) =>
      match reverseCps h1 is with
      | some (h2, js) => some (h2, j :: js)
      | none => none
    | none => none

/-- `ElemCurve(c.name, c.penbrush, ControlPoint.reverse_list(c.control_points), c.closed, c.xform)` (bezier.py:50-53,
model.py:363-366). -/
def reversed (h : Heap) (i : ℕ) : Heap × Option PyErr :=
  match h.curves[i]? with
  | some c =>
    match reverseCps h c.cps.reverse with
    | some (h1, is) => newCurve h1 { c with cps := is }
    | none => (h, some .attribute)
  | none => (h, some .attribute)

/-- model.py:441-470 `curve.offset(offset)`. -/
def offset (h : Heap) (i : ℕ) (off : ℝ) : Heap × Option PyErr :=
  match h.curves[i]? with
  | some c =>
    match h.xfs[c.xf]?, readCps h c.cps with
    | some x, some vs =>
      if c.pb.filled && !c.closed then (h, some .assertion)
      else
        match Elem.offsetCps (vs.map fun v => v.transformLin (Mat3.one.mul x).apply) off with
        | .error e => (h, some e)
        | .ok new =>
          let (h1, is) := newCps h new
          newCurveXf h1 (c.name ++ "_o".toList) c.pb c.closed Mat3.one is
    | _, _ => (h, some .attribute)
  | none => (h, some .attribute)

/-- anim.py:366 `c.control_points = c.control_points[k:] + c.control_points[:k]`. -/
def turn (h : Heap) (i k : ℕ) : Heap × Option PyErr :=
  match h.curves[i]? with
  | some c => ({ h with curves := h.curves.set i { c with cps := c.cps.drop k ++ c.cps.take k } }, none)
  | none => (h, some .attribute)

/-- The transform object of a curve gets another matrix, as by `curve.xform.translate(..)` and the like (transform.py:198-253). -/
def setXf (h : Heap) (i : ℕ) (m : Mat3 ℝ) : Heap × Option PyErr :=
  match h.curves[i]? with
  | some c => ({ h with xfs := h.xfs.set c.xf m }, none)
  | none => (h, some .attribute)

/-- `ElemCurve(name, penbrush, [ControlPoint(...), ...], closed, Transform(...))` with all objects new. -/
def make (h : Heap) (name : Str) (pb : PenBrush) (closed : Bool) (m : Mat3 ℝ) (vs : List (CP ℝ)) : Heap × Option PyErr :=
  let (h1, is) := newCps h vs
  newCurveXf h1 name pb closed m is

/-- `ElemCurve(c.name, c.penbrush, c.control_points, c.closed, c.xform)`: another curve which holds the same control points. -/
def share (h : Heap) (i : ℕ) : Heap × Option PyErr :=
  match h.curves[i]? with
  | some c => newCurve h c
  | none => (h, some .attribute)

/-- The calls of a program on curves. -/
inductive Op
  | make (name : Str) (pb : PenBrush) (closed : Bool) (m : Mat3 ℝ) (vs : List (CP ℝ))
  | copy (i : ℕ)
  | addOne (i : ℕ)
  | restore (i j : ℕ)
  | transform (i : ℕ) (m : Mat3 ℝ)
  | reversed (i : ℕ)
  | offset (i : ℕ) (off : ℝ)
  | turn (i k : ℕ)
  | setXf (i : ℕ) (m : Mat3 ℝ)

/-- One call: the objects afterwards and the exception raised, if any. -/
def step (h : Heap) : Op → Heap × Option PyErr
  | .make n pb c m vs => make h n pb c m vs
  | .copy i => copy h i
  | .addOne i => addOne h i
  | .restore i j => restore h i j
  | .transform i m => transform h i m
  | .reversed i => reversed h i
  | .offset i off => offset h i off
  | .turn i k => turn h i k
  | .setXf i m => setXf h i m

/-- A history of calls, exceptions being caught: the objects at the end and the exceptions in order. -/
def run (h : Heap) : List Op → Heap × List (Option PyErr)
  | [] => (h, [])
  | op :: ops =>
    let (h1, e) := step h op
    let (h2, es) := run h1 ops
    (h2, e :: es)

end X7.CH
