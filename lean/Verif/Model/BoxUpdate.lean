import Verif.Model.ElemHeap

/-!
Model of resizing an element by its box (x7/geom/model.py): `bbox_int_update` (479-481, 574-577, 891-892, 1103-1104) of every
class, on values and on mutable objects, and `as_digi_points` (549-550, 629-630, 877-878, 1086-1087).
-/

noncomputable section

namespace X7

/-- model.py:549-550, 629-630, 877-878, 1086-1087 `as_digi_points()`, with the `make_control_points` of the classes (664-666, 739-743,
780-782). -/
def Elem.asDigi : Elem → Except PyErr (List (CP ℝ))
  | .curve _ cps => .ok cps
  | .rect _ p1 p2 => .ok ((Elem.corners p1 p2).map fun p => CP.mk p ⟨0, 0⟩ ⟨0, 0⟩ "smooth")
  | .rrect _ p1 p2 r => makeRoundedRect p1 p2 r
  | .ellipse _ p1 p2 => makeEllipseP1P2 p1 p2
  | .group _ _ _ => .error .value
  | .holes _ _ _ => .error .value

/-- geom.py:649-661 `bbox.p1` and `bbox.p2`, both of which raise `ValueError` for the box without coordinates. -/
def BBox.p1p2 (b : BBox ℝ) : Except PyErr (Pt ℝ × Pt ℝ) :=
  match b with
  | .none => .error .value
  | .box xl yl xh yh => .ok (⟨xl, yl⟩, ⟨xh, yh⟩)

/-- model.py:479-481, 574-577, 891-892, 1103-1104 `bbox_int_update(bbox)`: the element afterwards. -/
def Elem.bboxIntUpdate (b : BBox ℝ) : Elem → Except PyErr Elem
  | .curve _ _ => .error .value
  | .rect h _ _ => b.p1p2.map fun q => .rect h q.1 q.2
  | .rrect h _ _ r => b.p1p2.map fun q => .rrect h q.1 q.2 r
  | .ellipse h _ _ => b.p1p2.map fun q => .ellipse h q.1 q.2
  | .group _ _ _ => .error .value
  | .holes _ _ _ => .error .value

/-- model.py:479-481, 574-577, 891-892, 1103-1104 `bbox_int_update(bbox)` of object `i`: `bbox.p1` and `bbox.p2` are new points, whose
coordinates the points of the element take over (geom.py 466-467). On an exception nothing has been written. -/
def EH.bboxIntUpdate (h : EH.Heap) (i : ℕ) (b : BBox ℝ) : Except PyErr EH.Heap :=
  match h[i]? with
  | some (.shape _ _ p1 p2 _) =>
    match b with
    | .none => .error .value
    | .box xl yl xh yh =>
      let h := h ++ [.pt xl yl none]
      match EH.restorePt h p1 (h.length - 1) with
      | .error e => .error e
      | .ok h =>
        let h := h ++ [.pt xh yh none]
        EH.restorePt h p2 (h.length - 1)
  | some (.curve _ _) => .error .value
  | some (.group _ _ _ _) => .error .value
  | some (.holes _ _ _) => .error .value
  | _ => .error .attribute

end X7
