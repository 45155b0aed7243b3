import Verif.Model.Shapes
import Verif.Model.Colors

/-!
Model of the shape classes of x7/geom/model.py: `Path` (98-121), `ControlPath` (124-132), `Elem` (135-356), `ElemCurve`
(359-550), `ElemP1P2` and its subclasses (553-666, 729-813), `Group` (816-1012), `ElemWithHoles` (1015-1183): drawing
(`paths`, `control_paths`), bounding boxes (`bbox`, `bbox_int`), `transform`, `as_curves`.

Elements are values here: an own transform is represented by its matrix (nothing modelled here changes an own transform), the
points of an element by their coordinates. Mutable elements (`copy`, `restore`, aliasing) are in Model/ElemHeap.
The matrix of the drawing context is a mutable `Transform` (Model/Transform) and is threaded through.
-/

noncomputable section

namespace X7

/-- model.py:98-108 `Path`. `ImagePath.Path` (PIL) is a list of points (library assumption: made from a flat list of
coordinates or a list of pairs, `tolist()` gives back the pairs). -/
structure Path where
  pb : PenBrush
  closed : Bool
  pts : List (Pt ℝ)

/-- `ImagePath.Path` of a flat list of coordinates. -/
def pairUp : List ℝ → List (Pt ℝ)
  | x :: y :: rest => ⟨x, y⟩ :: pairUp rest
  | _ => []

/-- model.py:110-121 `Path.extend`: `curr_points[-1]` of an empty path is an `IndexError`. -/
def Path.extend (p : Path) (more : List (Pt ℝ)) (closed : Bool) : Except PyErr Path :=
  if closed then
    match p.pts.getLast? with
    | none => .error .index
    | some q => .ok { p with pts := p.pts ++ (more ++ [q]) }
  else .ok { p with pts := p.pts ++ more }

/-- One entry of a `ControlPath` (model.py:124-132): a point or a control point. -/
inductive CEntry
  | pt (p : Pt ℝ)
  | cp (c : CP ℝ)

/-- model.py:138-144 the attributes of every `Elem`: `name`, `penbrush`, `closed`, `xform` (its matrix). -/
structure Hdr where
  name : Str
  pb : PenBrush
  closed : Bool
  xf : Mat3 ℝ

/-- The element classes. `Group.elems` is a dict in insertion order: pairs of key and element. Simplification: the `points`
dict of a group plays no role in drawing and is left out. -/
inductive Elem
  | curve (h : Hdr) (cps : List (CP ℝ))
  | rect (h : Hdr) (p1 p2 : Pt ℝ)
  | rrect (h : Hdr) (p1 p2 : Pt ℝ) (radius : ℝ)
  | ellipse (h : Hdr) (p1 p2 : Pt ℝ)
  | group (h : Hdr) (hidden : Bool) (elems : List (Str × Elem))
  | holes (h : Hdr) (outside : Elem) (inside : List Elem)

/-- What drawing reads from the drawing context besides the matrix (drawing.py:58-66). -/
structure DCfg where
  showCps : Bool
  pointsPerCurve : ℕ

namespace Elem

/-- The common attributes. -/
def hdr : Elem → Hdr
  | curve h _ => h
  | rect h _ _ => h
  | rrect h _ _ _ => h
  | ellipse h _ _ => h
  | group h _ _ => h
  | holes h _ _ => h

/-- model.py:160-166 `with self.draw_space(dc): body`, i.e. `with dc.matrix.push().compose(self.xform)`: `__enter__`
(transform.py:327-331) needs a non-empty stack, `__exit__` (333-334) pops whether or not the body raised. -/
def drawSpace {α : Type} (s : TState) (xf : Mat3 ℝ) (body : TState → TState × Except PyErr α) : TState × Except PyErr α :=
  let s1 := s.push.compose xf
  if s1.stack = [] then (s1, .error .emptyStack)
  else
    let r := body s1
    match r.1.pop with
    | ⟨s2, none⟩ => (s2, r.2)
    | ⟨s2, some e⟩ => (s2, .error e)

/-- model.py:514-523 the loop of `ElemCurve.paths` over the transformed control points. -/
def curvePts (cps : List (CP ℝ)) (closed : Bool) (segments : ℕ) : List ℝ :=
  let extra := if closed then cps else []
  ((cps.zip (cps.tail ++ extra)).foldl (fun (acc : List ℝ × ℕ) pq =>
    let bez_pts := bez pq.1.c pq.1.r pq.2.l pq.2.c segments
    (acc.1 ++ bez_pts.drop acc.2, 2)) ([], 0)).1

/-- model.py:603-610 `ElemP1P2.points`: the four corners. -/
def corners (p1 p2 : Pt ℝ) : List (Pt ℝ) := [p1, ⟨p1.x, p2.y⟩, p2, ⟨p2.x, p1.y⟩]

/-- model.py:506-524 `ElemCurve.paths`, body of the `with`. -/
def curvePaths (cfg : DCfg) (h : Hdr) (cps : List (CP ℝ)) (s : TState) : TState × Except PyErr (List Path) :=
  let segments := if cfg.showCps then 10 else cfg.pointsPerCurve
  let control_points := cps.map (·.transformLin s.mat.apply)
  (s, .ok [⟨h.pb, h.closed, pairUp (curvePts control_points h.closed segments)⟩])

/-- model.py:639-645 `ElemRectangle.paths`, body of the `with`, and the lines after it, which only read the result. -/
def rectPaths (h : Hdr) (p1 p2 : Pt ℝ) (s : TState) : TState × Except PyErr (List Path) :=
  match s.transformPts (corners p1 p2) with
  | .ok path => (s, .ok [⟨h.pb, h.closed, path ++ path.take 1⟩])
  | .error e => (s, .error e)

/-- model.py:773-775, 801-803 `ElemRectangleRounded.paths`, `ElemEllipse.paths`, body of the `with`: `bez_path` with its
default of 20 steps; `closed` is always True. -/
def shapePaths (h : Hdr) (mk : Except PyErr (List (CP ℝ))) (s : TState) : TState × Except PyErr (List Path) :=
  match mk with
  | .ok cps => (s, .ok [⟨h.pb, h.closed, pairUp (bezPath s.mat.apply cps true 20)⟩])
  | .error e => (s, .error e)

/-- model.py:1064-1069 the loop body for one inside element whose paths are `paths`, filled case: `edges` is extended by all
of `paths` once for each path in it. All path objects end up with the edge brush. -/
def fillInside (edge : PenBrush) (paths : List Path) : List Path → List Path × Path → Except PyErr (List Path × Path)
  | [], acc => .ok acc
  | p :: rest, (edges, fill) =>
    match fill.extend p.pts true with
    | .ok fill' => fillInside edge paths rest (edges ++ paths.map (fun q => { q with pb := edge }), fill')
    | .error e => .error e

mutual
/-- model.py:506-524, 639-645, 767-775, 796-803, 856-866, 1047-1077 `paths(dc)`. -/
def paths (cfg : DCfg) : Elem → TState → TState × Except PyErr (List Path)
  | .curve h cps, s => drawSpace s h.xf (curvePaths cfg h cps)
  | .rect h p1 p2, s => drawSpace s h.xf (rectPaths h p1 p2)
  | .rrect h p1 p2 radius, s => drawSpace s h.xf (shapePaths h (makeRoundedRect p1 p2 radius))
  | .ellipse h p1 p2, s => drawSpace s h.xf (shapePaths h (makeEllipseP1P2 p1 p2))
  | .group h hidden elems, s =>
    if hidden then (s, .ok []) else drawSpace s h.xf (pathsAll cfg elems)
  | .holes h outside inside, s =>
    drawSpace s h.xf fun s =>
      match paths cfg outside s with
      | (s, .error e) => (s, .error e)
      | (s, .ok edges) =>
        match edges with
        | [edge] =>
          let edge_brush : PenBrush := ⟨h.pb.pen, none⟩
          let edge' := { edge with pb := edge_brush }
          match h.pb.brush with
          | some b =>
            match pathsFill cfg edge_brush inside s ([edge'], ⟨⟨none, some b⟩, edge.closed, edge.pts⟩) with
            | (s, .ok (edges, fill)) => (s, .ok (fill :: edges))
            | (s, .error e) => (s, .error e)
          | none => pathsEdge cfg edge_brush inside s [edge']
        | _ => (s, .error .assertion)
/-- model.py:864-865 the loop of `Group.paths`. -/
def pathsAll (cfg : DCfg) : List (Str × Elem) → TState → TState × Except PyErr (List Path)
  | [], s => (s, .ok [])
  | (_, e) :: rest, s =>
    match paths cfg e s with
    | (s, .error er) => (s, .error er)
    | (s, .ok ps) =>
      match pathsAll cfg rest s with
      | (s, .error er) => (s, .error er)
      | (s, .ok qs) => (s, .ok (ps ++ qs))
/-- model.py:1064-1070 the loop over the holes when the shape is filled. -/
def pathsFill (cfg : DCfg) (edge : PenBrush) : List Elem → TState → List Path × Path → TState × Except PyErr (List Path × Path)
  | [], s, acc => (s, .ok acc)
  | e :: rest, s, acc =>
    match paths cfg e s with
    | (s, .error er) => (s, .error er)
    | (s, .ok ps) =>
      match fillInside edge ps ps acc with
      | .error er => (s, .error er)
      | .ok acc => pathsFill cfg edge rest s acc
/-- model.py:1072-1077 the loop over the holes when the shape is not filled. -/
def pathsEdge (cfg : DCfg) (edge : PenBrush) : List Elem → TState → List Path → TState × Except PyErr (List Path)
  | [], s, acc => (s, .ok acc)
  | e :: rest, s, acc =>
    match paths cfg e s with
    | (s, .error er) => (s, .error er)
    | (s, .ok ps) => pathsEdge cfg edge rest s (acc ++ ps.map fun q => { q with pb := edge })
end

/-- model.py:526-531, 622-627 `control_paths` of a curve or shape with control points, body of the `with`. -/
def cpsControl (mk : Except PyErr (List (CP ℝ))) (s : TState) : TState × Except PyErr (List (List CEntry)) :=
  match mk with
  | .ok cps => (s, .ok [cps.map fun cp => .cp (cp.transformLin s.mat.apply)])
  | .error e => (s, .error e)

/-- model.py:648-653 `ElemRectangle.control_paths`, body of the `with`. -/
def rectControl (p1 p2 : Pt ℝ) (s : TState) : TState × Except PyErr (List (List CEntry)) :=
  match s.transformPts (corners p1 p2) with
  | .ok pts => (s, .ok [pts.map .pt])
  | .error e => (s, .error e)

mutual
/-- model.py:526-531, 622-627, 648-653, 868-875, 1079-1084 `control_paths(dc)`. -/
def controlPaths : Elem → TState → TState × Except PyErr (List (List CEntry))
  | .curve h cps, s => drawSpace s h.xf (cpsControl (.ok cps))
  | .rect h p1 p2, s => drawSpace s h.xf (rectControl p1 p2)
  | .rrect h p1 p2 radius, s => drawSpace s h.xf (cpsControl (makeRoundedRect p1 p2 radius))
  | .ellipse h p1 p2, s => drawSpace s h.xf (cpsControl (makeEllipseP1P2 p1 p2))
  | .group h hidden elems, s =>
    if hidden then (s, .ok []) else drawSpace s h.xf (controlPathsAll elems)
  | .holes h outside inside, s =>
    drawSpace s h.xf fun s =>
      match controlPaths outside s with
      | (s, .error e) => (s, .error e)
      | (s, .ok ps) =>
        match controlPathsIn inside s with
        | (s, .error e) => (s, .error e)
        | (s, .ok qs) => (s, .ok (ps ++ qs))
/-- model.py:873-874 the loop of `Group.control_paths`. -/
def controlPathsAll : List (Str × Elem) → TState → TState × Except PyErr (List (List CEntry))
  | [], s => (s, .ok [])
  | (_, e) :: rest, s =>
    match controlPaths e s with
    | (s, .error er) => (s, .error er)
    | (s, .ok ps) =>
      match controlPathsAll rest s with
      | (s, .error er) => (s, .error er)
      | (s, .ok qs) => (s, .ok (ps ++ qs))
/-- model.py:1082-1083 the loop of `ElemWithHoles.control_paths`. -/
def controlPathsIn : List Elem → TState → TState × Except PyErr (List (List CEntry))
  | [], s => (s, .ok [])
  | e :: rest, s =>
    match controlPaths e s with
    | (s, .error er) => (s, .error er)
    | (s, .ok ps) =>
      match controlPathsIn rest s with
      | (s, .error er) => (s, .error er)
      | (s, .ok qs) => (s, .ok (ps ++ qs))
end

/-- model.py:193-198 `Elem.bbox` given the result of `bbox_int`: `pll`, `phh`, ... of `BBox(None)` raise `ValueError`. -/
def bboxOf (xf : Mat3 ℝ) (bb : BBox ℝ) : Except PyErr (BBox ℝ) :=
  match bb with
  | .none => .error .value
  | .box xl yl xh yh =>
    let b1 := BBox.ofPts (xf.apply ⟨xl, yl⟩) (xf.apply ⟨xh, yh⟩)
    let b2 := BBox.ofPts (xf.apply ⟨xl, yh⟩) (xf.apply ⟨xh, yl⟩)
    .ok (b1.add b2)

/-- model.py:193-198 `Elem.bbox` from the outcome of `bbox_int`. -/
def bboxFrom (xf : Mat3 ℝ) : Except PyErr (BBox ℝ) → Except PyErr (BBox ℝ)
  | .error er => .error er
  | .ok bb => bboxOf xf bb

mutual
/-- model.py:472-477, 570-572, 883-889, 1093-1101 `bbox_int()`. -/
def bboxInt : Elem → Except PyErr (BBox ℝ)
  | .curve _ cps => bboxCps cps
  | .rect _ p1 p2 => .ok (BBox.ofPts p1 p2)
  | .rrect _ p1 p2 _ => .ok (BBox.ofPts p1 p2)
  | .ellipse _ p1 p2 => .ok (BBox.ofPts p1 p2)
  | .group _ _ elems => if elems.isEmpty then .error .geomInternal else bboxAll elems .none
  | .holes _ outside inside =>
    match bboxInt outside with
    | .error er => .error er
    | .ok bbox_outside =>
      match bboxIn inside .none with
      | .error er => .error er
      | .ok bbox_inside =>
        match bbox_outside.contains bbox_inside with
        | .ok true => .ok bbox_outside
        | .ok false => .error .assertion
        | .error er => .error er
/-- model.py:887-888 the loop of `Group.bbox_int`; `elem.bbox()` is 193-198. -/
def bboxAll : List (Str × Elem) → BBox ℝ → Except PyErr (BBox ℝ)
  | [], acc => .ok acc
  | (_, e) :: rest, acc =>
    match bboxFrom e.hdr.xf (bboxInt e) with
    | .error er => .error er
    | .ok bb => bboxAll rest (acc.add bb)
/-- model.py:1098-1099 the loop of `ElemWithHoles.bbox_int`. -/
def bboxIn : List Elem → BBox ℝ → Except PyErr (BBox ℝ)
  | [], acc => .ok acc
  | e :: rest, acc =>
    match bboxFrom e.hdr.xf (bboxInt e) with
    | .error er => .error er
    | .ok bb => bboxIn rest (acc.add bb)
end

/-- model.py:193-198 `bbox()`. -/
def bbox (e : Elem) : Except PyErr (BBox ℝ) := bboxFrom e.hdr.xf (bboxInt e)

/-- model.py:189-191 `center()`. -/
def center (e : Elem) : Except PyErr (Pt ℝ) :=
  match e.bbox with
  | .error er => .error er
  | .ok bb => bb.center

/-- model.py:591-596 `ElemP1P2.transform_pts(matrix, points)`: the matrix object afterwards, the residual transform and the
points; `rotate.untransform_pt` fails if the residual matrix is singular. -/
def transformPtsP (xf : Mat3 ℝ) (m : TState) (points : List (Pt ℝ)) : TState × Except PyErr (Mat3 ℝ × List (Pt ℝ)) :=
  drawSpace m xf fun x =>
    let rotate := x.simplify.2
    let rec go (rotate : TState) : List (Pt ℝ) → Except PyErr (List (Pt ℝ))
      | [] => .ok []
      | p :: rest =>
        match rotate.untransform (x.transform p) with
        | (rotate, .ok q) =>
          match go rotate rest with
          | .ok qs => .ok (q :: qs)
          | .error e => .error e
        | (_, .error e) => .error e
    match go rotate points with
    | .ok ps => (x, .ok (rotate.mat, ps))
    | .error e => (x, .error e)

/-- Assignment to the attribute `penbrush` (model.py:1022-1024). -/
def setPb (e : Elem) (pb : PenBrush) : Elem :=
  match e with
  | .curve h x => .curve { h with pb := pb } x
  | .rect h x y => .rect { h with pb := pb } x y
  | .rrect h x y z => .rrect { h with pb := pb } x y z
  | .ellipse h x y => .ellipse { h with pb := pb } x y
  | .group h x y => .group { h with pb := pb } x y
  | .holes h x y => .holes { h with pb := pb } x y

/-- model.py:143-144 the check at the end of `Elem.__init__`. -/
def checkClosed (pb : PenBrush) (closed : Bool) : Except PyErr Unit :=
  if pb.filled && !closed then .error .assertion else .ok ()

mutual
/-- model.py:377-385, 579-583, 745-749, 894-897, 1106-1109 `copy()` as a value. The constructors check `closed` again.
`Group.copy` does not pass `closed` on, so the default False is used; its elements are the same objects. -/
def copy : Elem → Except PyErr Elem
  | .curve h cps => do checkClosed h.pb h.closed; .ok (.curve h cps)
  | .rect h p1 p2 => if h.closed then .ok (.rect h p1 p2) else .error .assertion
  | .rrect h p1 p2 r => if h.closed then .ok (.rrect h p1 p2 r) else .error .assertion
  | .ellipse h p1 p2 => if h.closed then .ok (.ellipse h p1 p2) else .error .assertion
  | .group h hidden elems => do checkClosed h.pb false; .ok (.group { h with closed := false } hidden elems)
  | .holes h outside inside =>
    match copy outside with
    | .error e => .error e
    | .ok o =>
      match copyAll inside with
      | .error e => .error e
      | .ok is => do
        checkClosed h.pb h.closed
        .ok (.holes h (o.setPb h.pb) (is.map (·.setPb h.pb)))
/-- model.py:1109 `[e.copy() for e in self.inside]`. -/
def copyAll : List Elem → Except PyErr (List Elem)
  | [] => .ok []
  | e :: rest =>
    match copy e with
    | .error er => .error er
    | .ok c =>
      match copyAll rest with
      | .error er => .error er
      | .ok cs => .ok (c :: cs)
end

/-- model.py:400-406, 598-601, 758-762, 907-909, 1119-1123 `transform(matrix)`: the caller's matrix object afterwards and the
new element. A group is built without `closed`, as in `copy`. -/
def transform (e : Elem) (m : TState) : TState × Except PyErr Elem :=
  match e with
  | .curve h cps =>
    drawSpace m h.xf fun x =>
      match checkClosed h.pb h.closed with
      | .ok _ => (x, .ok (.curve { h with xf := Mat3.one } (cps.map (·.transformLin x.mat.apply))))
      | .error er => (x, .error er)
  | .rect h p1 p2 =>
    match transformPtsP h.xf m [p1, p2] with
    | (m, .ok (r, [q1, q2])) => (m, .ok (.rect { h with closed := true, xf := r } q1 q2))
    | (m, .ok _) => (m, .error .value)
    | (m, .error er) => (m, .error er)
  | .rrect h p1 p2 radius =>
    match transformPtsP h.xf m [p1, p2, p1.addVector ⟨radius, 0⟩] with
    | (m, .ok (r, [q1, q2, q1r])) => (m, .ok (.rrect { h with closed := true, xf := r } q1 q2 (q1r.sub q1).length))
    | (m, .ok _) => (m, .error .value)
    | (m, .error er) => (m, .error er)
  | .ellipse h p1 p2 =>
    match transformPtsP h.xf m [p1, p2] with
    | (m, .ok (r, [q1, q2])) => (m, .ok (.ellipse { h with closed := true, xf := r } q1 q2))
    | (m, .ok _) => (m, .error .value)
    | (m, .error er) => (m, .error er)
  | .group h hidden elems =>
    let xform := m.copy.compose h.xf
    match checkClosed h.pb false with
    | .ok _ => (m, .ok (.group { h with closed := false, xf := xform.mat } hidden elems))
    | .error er => (m, .error er)
  | .holes h outside inside =>
    let xform := m.copy.compose h.xf
    match copy outside with
    | .error er => (m, .error er)
    | .ok o =>
      match copyAll inside with
      | .error er => (m, .error er)
      | .ok is =>
        match checkClosed h.pb h.closed with
        | .ok _ => (m, .ok (.holes { h with xf := xform.copy.mat } (o.setPb h.pb) (is.map (·.setPb h.pb))))
        | .error er => (m, .error er)

/-- model.py:354-356 `Elem.as_curves` given the control points: `ElemCurve.__init__` checks `closed` (143-144). -/
def curveOf (h : Hdr) (cps : List (CP ℝ)) : Except PyErr (List (Hdr × List (CP ℝ))) :=
  match checkClosed h.pb h.closed with
  | .error er => .error er
  | .ok _ => .ok [({ h with xf := Mat3.one }, cps.map (·.transformLin h.xf.apply))]

/-- model.py:881, 1091 `c.transform(self.xform)` for a curve `c` made by `as_curves` (400-406): it leaves the matrix object as it was,
and its constructor check has succeeded before, so only the matrix matters. -/
def curveMoved (m : Mat3 ℝ) (c : Hdr × List (CP ℝ)) : Hdr × List (CP ℝ) :=
  ({ c.1 with xf := Mat3.one }, c.2.map (·.transformLin (m.mul c.1.xf).apply))

mutual
/-- model.py:354-356, 880-881, 1089-1091 `as_curves()`, with `as_digi_points` (549-550, 629-630, 664-666): the curves of the parts. -/
def asCurves : Elem → Except PyErr (List (Hdr × List (CP ℝ)))
  | .curve h cps => curveOf h cps
  | .rect h p1 p2 => curveOf h ((corners p1 p2).map fun p => CP.mk p ⟨0, 0⟩ ⟨0, 0⟩ "smooth")
  | .rrect h p1 p2 r =>
    match makeRoundedRect p1 p2 r with
    | .error er => .error er
    | .ok cps => curveOf h cps
  | .ellipse h p1 p2 =>
    match makeEllipseP1P2 p1 p2 with
    | .error er => .error er
    | .ok cps => curveOf h cps
  | .group h _ elems =>
    match asCurvesAll elems with
    | .error er => .error er
    | .ok cs => .ok (cs.map (curveMoved h.xf))
  | .holes h outside inside =>
    match asCurves outside with
    | .error er => .error er
    | .ok cs =>
      match asCurvesIn inside with
      | .error er => .error er
      | .ok ds => .ok ((cs ++ ds).map (curveMoved h.xf))
/-- model.py:881 the inner loop of `Group.as_curves`. -/
def asCurvesAll : List (Str × Elem) → Except PyErr (List (Hdr × List (CP ℝ)))
  | [] => .ok []
  | (_, e) :: rest =>
    match asCurves e with
    | .error er => .error er
    | .ok cs =>
      match asCurvesAll rest with
      | .error er => .error er
      | .ok ds => .ok (cs ++ ds)
/-- model.py:1090-1091 the inner loop of `ElemWithHoles.as_curves`. -/
def asCurvesIn : List Elem → Except PyErr (List (Hdr × List (CP ℝ)))
  | [] => .ok []
  | e :: rest =>
    match asCurves e with
    | .error er => .error er
    | .ok cs =>
      match asCurvesIn rest with
      | .error er => .error er
      | .ok ds => .ok (cs ++ ds)
end

end Elem
end X7
