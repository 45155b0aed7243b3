import Verif.Model.Elem

/-!
Model of elements as mutable objects (x7/geom/model.py): `copy` and `restore` of `ElemCurve` (377-395), `ElemP1P2` and
`ElemRectangleRounded` (579-589, 745-756), `Group` (894-905), `ElemWithHoles` (1106-1117), the base class (174-179) and the
constructors they call (138-144, 366-367, 554-559, 730-734, 817-839, 1016-1024); `ControlPoint.fixed`, `restore` (bezier.py 53-55,
67-72), `Point.fixed`, `copy`, `restore` and `Vector.fixed`, `copy` (geom.py 96-100, 320-321, 462-467).

A reference is the index of the object in the heap. Simplifications: control points are made of plain points and vectors
(relative points are in Model/PointHeap), parts of a shape with holes are curves or P1P2 shapes. Lists and dicts are always
rebuilt by the code modelled here, so they are values inside their element.
-/

noncomputable section

namespace X7.EH

/-- model.py:138-144 the attributes of every `Elem`; `xform` is a reference. -/
structure Attr where
  name : Str
  pb : PenBrush
  closed : Bool
  xf : ℕ

/-- The classes derived from `ElemP1P2`. -/
inductive Cls
  | rect | ellipse | rounded
  deriving DecidableEq

/-- Objects. -/
inductive Obj
  | xform (m : Mat3 ℝ)
  | pt (x y : ℝ) (name : Option String)
  | vec (x y : ℝ)
  | cp (c dl dr : ℕ) (kind : String)
  | curve (a : Attr) (cps : List ℕ)
  | shape (a : Attr) (cls : Cls) (p1 p2 : ℕ) (radius : ℝ)
  | group (a : Attr) (hidden : Bool) (elems points : List (Str × ℕ))
  | holes (a : Attr) (outside : ℕ) (inside : List ℕ)

abbrev Heap := List Obj

/-- geom.py:320-321 the name of `fixed()`. -/
def fixName (n : Option String) : Option String :=
  match n with
  | some s => if s != "" then some ("fixed_" ++ s) else none
  | none => none

/-- geom.py:320-321, 99-100 `fixed()` of a point or vector: the new object. -/
def fixedObj : Obj → Except PyErr Obj
  | .pt x y n => .ok (.pt x y (fixName n))
  | .vec x y => .ok (.vec x y)
  | _ => .error .attribute

/-- geom.py:462-464, 96-97 `copy()` of a point or vector: the new object, without a name. -/
def copiedObj : Obj → Except PyErr Obj
  | .pt x y _ => .ok (.pt x y none)
  | .vec x y => .ok (.vec x y)
  | _ => .error .attribute

/-- A new object made from object `i` by `f`. -/
def derive (f : Obj → Except PyErr Obj) (h : Heap) (i : ℕ) : Except PyErr (Heap × ℕ) :=
  match h[i]? with
  | some o =>
    match f o with
    | .ok o' => .ok (h ++ [o'], h.length)
    | .error e => .error e
  | none => .error .attribute

/-- transform.py:142-145 `xform.copy()`. -/
def copyXf (h : Heap) (i : ℕ) : Except PyErr (Heap × ℕ) :=
  derive (fun o => match o with | .xform m => .ok (.xform m) | _ => .error .attribute) h i

/-- bezier.py:53-55 `ControlPoint.fixed()`. -/
def fixCp (h : Heap) (i : ℕ) : Except PyErr (Heap × ℕ) :=
  match h[i]? with
  | some (.cp c dl dr kind) => do
    let (h, c) ← derive fixedObj h c
    let (h, dl) ← derive fixedObj h dl
    let (h, dr) ← derive fixedObj h dr
    .ok (h ++ [.cp c dl dr kind], h.length)
  | _ => .error .attribute

/-- model.py:379 `[cp.fixed() for cp in self.control_points]`. -/
def fixCps (h : Heap) : List ℕ → Except PyErr (Heap × List ℕ)
  | [] => .ok (h, [])
  | i :: rest => do
    let (h, j) ← fixCp h i
    let (h, js) ← fixCps h rest
    .ok (h, j :: js)

/-- model.py:143-144. -/
def checkClosed (pb : PenBrush) (closed : Bool) : Except PyErr Unit :=
  if pb.filled && !closed then .error .assertion else .ok ()

/-- model.py:377-385, 579-583, 745-749 `copy()` of a curve or P1P2 shape. The transform object is passed on, not copied. `p1`
and `p2` are copied, then fixed by the constructor. -/
def copyBasic (h : Heap) (i : ℕ) : Except PyErr (Heap × ℕ) :=
  match h[i]? with
  | some (.curve a cps) => do
    let (h, cps') ← fixCps h cps
    checkClosed a.pb a.closed
    .ok (h ++ [.curve a cps'], h.length)
  | some (.shape a cls p1 p2 radius) => do
    let (h, q1) ← derive copiedObj h p1
    let (h, q2) ← derive copiedObj h p2
    if a.closed = false then .error .assertion
    else do
      let (h, r1) ← derive fixedObj h q1
      let (h, r2) ← derive fixedObj h q2
      .ok (h ++ [.shape a cls r1 r2 radius], h.length)
  | _ => .error .attribute

/-- bezier.py:67-72 `cp.restore(ocp)`. -/
def restoreCp (h : Heap) (i j : ℕ) : Except PyErr Heap :=
  match h[i]?, h[j]? with
  | some (.cp _ _ _ _), some (.cp c dl dr kind) => do
    let (h, c) ← derive copiedObj h c
    let (h, dl) ← derive copiedObj h dl
    let (h, dr) ← derive copiedObj h dr
    .ok (h.set i (.cp c dl dr kind))
  | _, _ => .error .attribute

/-- model.py:391-392 the loop of `ElemCurve.restore`. -/
def restoreCps (h : Heap) : List ℕ → List ℕ → Except PyErr Heap
  | i :: is, j :: js => do
    let h ← restoreCp h i j
    restoreCps h is js
  | _, _ => .ok h

/-- geom.py:466-467 `p.restore(q)`: the coordinates, not the name. -/
def restorePt (h : Heap) (i j : ℕ) : Except PyErr Heap :=
  match h[i]?, h[j]? with
  | some (.pt _ _ n), some (.pt x y _) => .ok (h.set i (.pt x y n))
  | _, _ => .error .attribute

/-- model.py:174-179, 387-395, 585-589, 751-756 `self.restore(other)` of a curve or P1P2 shape. The heap an
exception leaves behind is not modelled. -/
def restoreBasic (h : Heap) (i j : ℕ) : Except PyErr Heap :=
  match h[i]?, h[j]? with
  | some (.curve _ cps), some (.curve b cps') => do
    let (h, x) ← copyXf h b.xf
    let h := h.set i (.curve { b with xf := x } cps)
    if cps.length = cps'.length then restoreCps h cps cps' else .error .geomInternal
  | some (.shape _ cls p1 p2 radius), some (.shape b _ q1 q2 radius') => do
    let (h, x) ← copyXf h b.xf
    let h := h.set i (.shape { b with xf := x } cls p1 p2 (if cls = .rounded then radius' else radius))
    let h ← restorePt h p1 q1
    restorePt h p2 q2
  | _, _ => .error .attribute

/-- model.py:894-897 `Group.copy()`: `closed` is not passed on; the elements and points are the same objects. -/
def copyGroup (h : Heap) (i : ℕ) : Except PyErr (Heap × ℕ) :=
  match h[i]? with
  | some (.group a hidden elems points) => do
    let (h, x) ← copyXf h a.xf
    checkClosed a.pb false
    .ok (h ++ [.group ⟨a.name, a.pb, false, x⟩ hidden elems points], h.length)
  | _ => .error .attribute

/-- model.py:899-905 `Group.restore(other)`: the transform object of `other` is shared, `closed` is left. -/
def restoreGroup (h : Heap) (i j : ℕ) : Except PyErr Heap :=
  match h[i]?, h[j]? with
  | some (.group a _ _ _), some (.group b hidden elems points) =>
    .ok (h.set i (.group ⟨b.name, b.pb, a.closed, b.xf⟩ hidden elems points))
  | _, _ => .error .attribute

/-- `elem.penbrush = pb` (model.py:1022-1024). -/
def setPb (h : Heap) (pb : PenBrush) (i : ℕ) : Heap :=
  match h[i]? with
  | some (.curve a cps) => h.set i (.curve { a with pb := pb } cps)
  | some (.shape a cls p1 p2 r) => h.set i (.shape { a with pb := pb } cls p1 p2 r)
  | _ => h

/-- model.py:1109 `[e.copy() for e in self.inside]`. -/
def copyList (h : Heap) : List ℕ → Except PyErr (Heap × List ℕ)
  | [] => .ok (h, [])
  | i :: rest => do
    let (h, j) ← copyBasic h i
    let (h, js) ← copyList h rest
    .ok (h, j :: js)

/-- model.py:1106-1109 `ElemWithHoles.copy()` and the constructor, which sets the pen of the parts. -/
def copyHoles (h : Heap) (i : ℕ) : Except PyErr (Heap × ℕ) :=
  match h[i]? with
  | some (.holes a outside inside) => do
    let (h, o) ← copyBasic h outside
    let (h, is) ← copyList h inside
    let (h, x) ← copyXf h a.xf
    checkClosed a.pb a.closed
    let h := setPb h a.pb o
    let h := is.foldl (fun h k => setPb h a.pb k) h
    .ok (h ++ [.holes ⟨a.name, a.pb, a.closed, x⟩ o is], h.length)
  | _ => .error .attribute

/-- model.py:1111-1117 `ElemWithHoles.restore(other)`: the holes are copies of its own holes, not of those of `other`. -/
def restoreHoles (h : Heap) (i j : ℕ) : Except PyErr Heap :=
  match h[i]?, h[j]? with
  | some (.holes _ _ inside), some (.holes b outside _) => do
    let (h, o) ← copyBasic h outside
    let (h, is) ← copyList h inside
    .ok (h.set i (.holes b o is))
  | _, _ => .error .attribute

/-- A later change by a program: an attribute of object `i` is assigned (its record becomes `o`), or an object is made. -/
inductive Op
  | write (i : ℕ) (o : Obj)
  | alloc (o : Obj)

def Op.run (h : Heap) : Op → Heap
  | .write i o => h.set i o
  | .alloc o => h ++ [o]

/-- A history of changes. -/
def run (h : Heap) (ops : List Op) : Heap := ops.foldl Op.run h

end X7.EH
