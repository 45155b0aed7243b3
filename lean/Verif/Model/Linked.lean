import Verif.Model.PointHeap
import Verif.Model.Bezier
import Verif.Model.Transform

/-!
Model of curves whose control points are any of the point and vector objects of x7/geom/geom.py: plain points and vectors,
`PointRelative`, `PointCalc` and `VectorRelative` (Model/PointHeap). `ControlPoint` is x7/geom/bezier.py 20-106, `ElemCurve` is
x7/geom/model.py 352-504. The question is what the methods do to the links between a curve and the points it hangs on.

A reference is the index of the object among the objects of its kind; objects are only ever appended. Of an `ElemCurve` only
`closed` and `control_points` are represented; name, pen and transform are in Model/CurveHeap. Objects which a raising call has
made and dropped are not represented.
-/

noncomputable section

namespace X7.LK

/-- bezier.py:23-27 a `ControlPoint` object: references to a point and two vectors. -/
structure Cp where
  c : ℕ
  dl : ℕ
  dr : ℕ
  kind : String

/-- model.py:363-366 an `ElemCurve` object. -/
structure Curve where
  closed : Bool
  cps : List ℕ

/-- All objects. -/
structure World where
  pts : PH.Heap ℝ
  cps : List Cp
  curves : List Curve

/-- No objects. -/
def World.empty : World := ⟨[], [], []⟩

/-- `vector.xy()` (geom.py:112-113, 245-246). -/
def readVec (h : PH.Heap ℝ) (i : ℕ) : Except PyErr (Vec ℝ) :=
  match PH.xy h i with
  | .ok p => .ok ⟨p.x, p.y⟩
  | .error e => .error e

/-- The present value of the control point with the attributes `o`, its parts being read in the order `c`, `dl`, `dr`. -/
def readObj (h : PH.Heap ℝ) (o : Cp) : Except PyErr (CP ℝ) :=
  match PH.xy h o.c with
  | .error e => .error e
  | .ok c =>
    match readVec h o.dl with
    | .error e => .error e
    | .ok dl =>
      match readVec h o.dr with
      | .error e => .error e
      | .ok dr => .ok ⟨c, dl, dr, o.kind⟩

/-- The present value of a control point object. -/
def readCp (w : World) (i : ℕ) : Except PyErr (CP ℝ) :=
  match w.cps[i]? with
  | some o => readObj w.pts o
  | none => .error .attribute

/-- The present values of a list of control point objects. -/
def readCps (w : World) : List ℕ → Except PyErr (List (CP ℝ))
  | [] => .ok []
  | i :: is =>
    match readCp w i with
    | .error e => .error e
    | .ok v =>
      match readCps w is with
      | .error e => .error e
      | .ok vs => .ok (v :: vs)

/-- The present values of the control points of a curve. -/
def readCurve (w : World) (k : ℕ) : Except PyErr (List (CP ℝ)) :=
  match w.curves[k]? with
  | some c => readCps w c.cps
  | none => .error .attribute

/-- `point.copy()` and `vector.copy()` (geom.py:462-464, 496-497, 529-530, 96-97, 236-237): the new object is the last one. -/
def copyPt (h : PH.Heap ℝ) (i : ℕ) : Except PyErr (PH.Heap ℝ × ℕ) :=
  match PH.step h (.copy i) with
  | (h1, none) => .ok (h1, h1.length - 1)
  | (_, some e) => .error e

/-- `point.fixed()` and `vector.fixed()` (geom.py:320-321, 99-100): the new object is the last one. -/
def fixedPt (h : PH.Heap ℝ) (i : ℕ) : Except PyErr (PH.Heap ℝ × ℕ) :=
  match PH.step h (.fixed i) with
  | (h1, none) => .ok (h1, h1.length - 1)
  | (_, some e) => .error e

/-- bezier.py:59-61 `cp.copy()` up to the constructor: copies of the three objects. -/
def copyParts (h : PH.Heap ℝ) (o : Cp) : Except PyErr (PH.Heap ℝ × Cp) :=
  match copyPt h o.c with
  | .error e => .error e
  | .ok (h1, c) =>
    match copyPt h1 o.dl with
    | .error e => .error e
    | .ok (h2, dl) =>
      match copyPt h2 o.dr with
      | .error e => .error e
      | .ok (h3, dr) => .ok (h3, ⟨c, dl, dr, o.kind⟩)

/-- bezier.py:55-57 `cp.fixed()` up to the constructor: three plain objects. -/
def fixedParts (h : PH.Heap ℝ) (o : Cp) : Except PyErr (PH.Heap ℝ × Cp) :=
  match fixedPt h o.c with
  | .error e => .error e
  | .ok (h1, c) =>
    match fixedPt h1 o.dl with
    | .error e => .error e
    | .ok (h2, dl) =>
      match fixedPt h2 o.dr with
      | .error e => .error e
      | .ok (h3, dr) => .ok (h3, ⟨c, dl, dr, o.kind⟩)

/-- bezier.py:55-57 `cp.fixed()`: a new control point. -/
def fixedCp (w : World) (i : ℕ) : Except PyErr (World × ℕ) :=
  match w.cps[i]? with
  | none => .error .attribute
  | some o =>
    match fixedParts w.pts o with
    | .error e => .error e
    | .ok (h, o') => .ok ({ w with pts := h, cps := w.cps ++ [o'] }, w.cps.length)

/-- model.py:379 the list comprehension of `ElemCurve.fixed`. -/
def fixedCps (w : World) : List ℕ → Except PyErr (World × List ℕ)
  | [] => .ok (w, [])
  | i :: is =>
    match fixedCp w i with
    | .error e => .error e
    | .ok (w1, j) =>
      match fixedCps w1 is with
      | .error e => .error e
      | .ok (w2, js) => .ok (w2, j :: js)

/-- model.py:377-385 `curve.copy()`, which is `curve.fixed()`. -/
def copy (w : World) (k : ℕ) : World × Option PyErr :=
  match w.curves[k]? with
  | none => (w, some .attribute)
  | some c =>
    match fixedCps w c.cps with
    | .error e => (w, some e)
    | .ok (w1, is) => ({ w1 with curves := w1.curves ++ [⟨c.closed, is⟩] }, none)

/-- bezier.py:69-74 `cp.restore(copy)` where `copy` has the attributes `o`: copies of its three objects are put into `cp`. -/
def restoreFrom (w : World) (i : ℕ) (o : Cp) : Except PyErr World :=
  match w.cps[i]? with
  | none => .error .attribute
  | some _ =>
    match copyParts w.pts o with
    | .error e => .error e
    | .ok (h, o') => .ok { w with pts := h, cps := w.cps.set i o' }

/-- bezier.py:69-74 `cp.restore(copy)`. -/
def restoreCp (w : World) (i j : ℕ) : Except PyErr World :=
  match w.cps[j]? with
  | none => .error .attribute
  | some o => restoreFrom w i o

/-- model.py:391-392 the loop of `ElemCurve.restore`. -/
def restoreCps (w : World) : List ℕ → List ℕ → World × Option PyErr
  | i :: is, j :: js =>
    match restoreCp w i j with
    | .error e => (w, some e)
    | .ok w1 => restoreCps w1 is js
  | _, _ => (w, none)

/-- model.py:174-179, 387-395 `curve.restore(other)`: `closed` is taken over before the numbers of control points are compared. -/
def restore (w : World) (k m : ℕ) : World × Option PyErr :=
  match w.curves[k]?, w.curves[m]? with
  | some c, some d =>
    let w1 := { w with curves := w.curves.set k ⟨d.closed, c.cps⟩ }
    if c.cps.length = d.cps.length then restoreCps w1 c.cps d.cps else (w1, some .geomInternal)
  | _, _ => (w, some .attribute)

/-- bezier.py:59-61 `cp.copy()`. -/
def copyCp (w : World) (i : ℕ) : World × Option PyErr :=
  match w.cps[i]? with
  | none => (w, some .attribute)
  | some o =>
    match copyParts w.pts o with
    | .error e => (w, some e)
    | .ok (h, o') => ({ w with pts := h, cps := w.cps ++ [o'] }, none)

/-- New control points made of new plain points and vectors. -/
def newCps (w : World) : List (CP ℝ) → World × List ℕ
  | [] => (w, [])
  | v :: vs =>
    let n := w.pts.length
    let w1 : World := { w with pts := w.pts ++ [.point v.c.x v.c.y none, .vec v.dl.x v.dl.y, .vec v.dr.x v.dr.y],
                               cps := w.cps ++ [⟨n, n + 1, n + 2, v.kind⟩] }
    let (w2, is) := newCps w1 vs
    (w2, w.cps.length :: is)

/-- model.py:400-406 `curve.transform(matrix)` for a curve without a transform of its own: new plain control points. -/
def transform (w : World) (k : ℕ) (m : Mat3 ℝ) : World × Option PyErr :=
  match w.curves[k]? with
  | none => (w, some .attribute)
  | some c =>
    match readCps w c.cps with
    | .error e => (w, some e)
    | .ok vs =>
      let (w1, is) := newCps w (vs.map fun v => v.transformLin m.apply)
      ({ w1 with curves := w1.curves ++ [⟨c.closed, is⟩] }, none)

/-- bezier.py:46-53 `ControlPoint.reverse_list`: new control points which hold the same objects; the argument is the reversed
list. -/
def reverseCps (w : World) : List ℕ → Except PyErr (World × List ℕ)
  | [] => .ok (w, [])
  | i :: is =>
    match w.cps[i]? with
    | none => .error .attribute
    | some o =>
      match reverseCps { w with cps := w.cps ++ [⟨o.c, o.dr, o.dl, o.kind⟩] } is with
      | .error e => .error e
      | .ok (w2, js) => .ok (w2, w.cps.length :: js)

/-- `ElemCurve(name, penbrush, ControlPoint.reverse_list(c.control_points), c.closed)` (bezier.py:46-53, model.py:363-366). -/
def reversed (w : World) (k : ℕ) : World × Option PyErr :=
  match w.curves[k]? with
  | none => (w, some .attribute)
  | some c =>
    match reverseCps w c.cps.reverse with
    | .error e => (w, some e)
    | .ok (w1, is) => ({ w1 with curves := w1.curves ++ [⟨c.closed, is⟩] }, none)

/-- model.py:494 the centres read by the comprehension `(a.c-b.c).length()`. -/
def readCs (w : World) : List ℕ → Except PyErr (List (Pt ℝ))
  | [] => .ok []
  | i :: is =>
    match w.cps[i]? with
    | none => .error .attribute
    | some o =>
      match PH.xy w.pts o.c with
      | .error e => .error e
      | .ok p =>
        match readCs w is with
        | .error e => .error e
        | .ok ps => .ok (p :: ps)

/-- bezier.py:639 `cp1.c, cp1.r, cp2.l, cp2.c`: what `bez_split` reads. -/
def readPair (h : PH.Heap ℝ) (o1 o2 : Cp) : Except PyErr (Pt ℝ × Vec ℝ × Vec ℝ × Pt ℝ) :=
  match PH.xy h o1.c with
  | .error e => .error e
  | .ok a =>
    match readVec h o1.dr with
    | .error e => .error e
    | .ok dr =>
      match PH.xy h o2.c with
      | .error e => .error e
      | .ok d =>
        match readVec h o2.dl with
        | .error e => .error e
        | .ok dl => .ok (a, dr, dl, d)

/-- bezier.py:633-651 `bez_split(cp1, cp2)` with `t = 0.5` on objects: the first result holds the centre and left handle objects of
`cp1`, the last one the centre and right handle objects of `cp2`; the middle point and the other four handles are new and plain.
The results are the attributes of three new control points. -/
def split (h : PH.Heap ℝ) (o1 o2 : Cp) : Except PyErr (PH.Heap ℝ × Cp × Cp × Cp) :=
  match readPair h o1 o2 with
  | .error e => .error e
  | .ok (a, dr, dl, d) =>
    let s := bezSplit ⟨a, ⟨0, 0⟩, dr, o1.kind⟩ ⟨d, dl, ⟨0, 0⟩, o2.kind⟩ (1 / 2)
    let n := h.length
    .ok (h ++ [.vec s.1.dr.x s.1.dr.y, .point s.2.1.c.x s.2.1.c.y none, .vec s.2.1.dl.x s.2.1.dl.y,
        .vec s.2.1.dr.x s.2.1.dr.y, .vec s.2.2.dl.x s.2.2.dl.y],
      ⟨o1.c, o1.dl, n, "smooth"⟩, ⟨n + 1, n + 2, n + 3, "smooth"⟩, ⟨o2.c, n + 4, o2.dr, "smooth"⟩)

/-- model.py:487-504 `curve.add_one()`. The control points `l` and `r` are dropped after the call; only the middle one stays. -/
def addOne (w : World) (k : ℕ) : World × Option PyErr :=
  match w.curves[k]? with
  | none => (w, some .attribute)
  | some c =>
    match readCs w c.cps with
    | .error e => (w, some e)
    | .ok ps =>
      match lastMax ((iterRotate2 ps).map fun ab => (ab.1.sub ab.2).length) with
      | none => (w, some .index)
      | some idx =>
        let left := idx % c.cps.length
        let right := (left + 1) % c.cps.length
        match c.cps[left]?, c.cps[right]? with
        | some p, some q =>
          match w.cps[p]?, w.cps[q]? with
          | some o1, some o2 =>
            match split w.pts o1 o2 with
            | .error e => (w, some e)
            | .ok (h, l, m, r) =>
              match restoreFrom { w with pts := h, cps := w.cps ++ [m] } p l with
              | .error e => (w, some e)
              | .ok w2 =>
                match restoreFrom w2 q r with
                | .error e => (w, some e)
                | .ok w3 => ({ w3 with curves := w3.curves.set k { c with cps := c.cps.insertIdx right w.cps.length } }, none)
          | _, _ => (w, some .attribute)
        | _, _ => (w, some .index)

/-- `isinstance(obj, Vector)`. -/
def isVec (h : PH.Heap ℝ) (i : ℕ) : Bool :=
  match h[i]? with
  | some (.vec ..) => true
  | some (.vecRel ..) => true
  | _ => false

/-- The calls of a program. -/
inductive Op
  | pts (op : PH.POp ℝ)                              -- any call on points and vectors
  | mkCp (c dl dr : ℕ) (kind : String)               -- bezier.py:23-27
  | mkCurve (closed : Bool) (cps : List ℕ)           -- model.py:363-366
  | copyCp (i : ℕ)                                   -- bezier.py:59-61
  | restoreCp (i j : ℕ)                              -- bezier.py:69-74
  | copy (k : ℕ)                                     -- model.py:377-385
  | restore (k m : ℕ)                                -- model.py:387-395
  | transform (k : ℕ) (m : Mat3 ℝ)                   -- model.py:400-406
  | reversed (k : ℕ)                                 -- bezier.py:50-53
  | addOne (k : ℕ)                                   -- model.py:487-504

/-- One call: the objects afterwards and the exception raised, if any. The annotations of the constructors are kept by the caller
(a centre is a point, a handle is a vector): other arguments leave the objects as they are. -/
def step (w : World) : Op → World × Option PyErr
  | .pts op => ({ w with pts := (PH.step w.pts op).1 }, (PH.step w.pts op).2)
  | .mkCp c dl dr kind =>
    if PH.isBasePoint w.pts c ∧ isVec w.pts dl ∧ isVec w.pts dr then ({ w with cps := w.cps ++ [⟨c, dl, dr, kind⟩] }, none)
    else (w, some .type)
  | .mkCurve closed cps =>
    if ∀ p ∈ cps, p < w.cps.length then ({ w with curves := w.curves ++ [⟨closed, cps⟩] }, none) else (w, some .type)
  | .copyCp i => copyCp w i
  | .restoreCp i j =>
    match restoreCp w i j with
    | .error e => (w, some e)
    | .ok w1 => (w1, none)
  | .copy k => copy w k
  | .restore k m => restore w k m
  | .transform k m => transform w k m
  | .reversed k => reversed w k
  | .addOne k => addOne w k

/-- A history of calls; exceptions are caught by the caller. -/
def run (w : World) (ops : List Op) : World := ops.foldl (fun w o => (step w o).1) w

end X7.LK
