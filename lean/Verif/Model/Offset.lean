import Verif.Model.Elem

/-!
Model of `ElemCurve.offset` (x7/geom/model.py 441-470).
-/

noncomputable section

namespace X7.Elem

/-- model.py:457-466 the body of the loop: the new control point made from `cm` and its two neighbours. -/
def offsetCp (cl cm cr : CP ℝ) (offset : ℝ) : Except PyErr (CP ℝ) :=
  let a := cl.r
  let b := cm.l
  let c := cm.c
  let d := cm.r
  let e := cr.l
  let ab := a.sub b
  let cb := c.sub b
  match offsetPt ab b cb offset with
  | .error er => .error er
  | .ok bo =>
    match offsetPt cm.dl cm.c cm.dr offset with
    | .error er => .error er
    | .ok co =>
      let cd := c.sub d
      let ed := e.sub d
      match offsetPt cd d ed offset with
      | .error er => .error er
      | .ok do_ => .ok ⟨co, bo.sub co, do_.sub co, cm.kind⟩

/-- model.py:444-466 the control points of the result, given the transformed ones. -/
def offsetCps (cps : List (CP ℝ)) (offset : ℝ) : Except PyErr (List (CP ℝ)) :=
  let points := cps.flatMap fun cp => [cp.l, cp.c, cp.r]
  let x_cps := if polygonArea points < 0 then cps.reverse.map CP.reversed else cps
  (iterRotate3m1 x_cps).mapM fun t => offsetCp t.1 t.2.1 t.2.2 offset

/-- model.py:441-470 `offset(offset)` of a curve; only curves have this method. The constructor checks `closed` (143-144). -/
def offset (e : Elem) (off : ℝ) : Except PyErr Elem :=
  match e with
  | .curve h _ =>
    match (e.transform TState.new).2 with
    | .error er => .error er
    | .ok (.curve _ cps) =>
      match offsetCps cps off with
      | .error er => .error er
      | .ok new =>
        match checkClosed h.pb h.closed with
        | .error er => .error er
        | .ok _ => .ok (.curve ⟨h.name ++ "_o".toList, h.pb, h.closed, Mat3.one⟩ new)
    | .ok _ => .error .attribute
  | _ => .error .attribute

end X7.Elem
