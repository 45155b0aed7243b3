import Verif.Model.CurveHeap
import Verif.Spec.Morph

/-!
What C106 says about curves that change, apart from the code: curves are independent values; only transform objects may be
shared.
-/

noncomputable section

namespace X7.CH

/-- A curve as a value. `xf` says which transform it has: the curves with the same number share one. -/
structure Curve where
  name : Str
  pb : PenBrush
  closed : Bool
  xf : ℕ
  cps : List (CP ℝ)

/-- The transforms, and the curves in the order they were made. -/
structure State where
  xfs : List (Mat3 ℝ)
  curves : List Curve

/-- One more curve; a filled curve must be closed. -/
def State.add (s : State) (c : Curve) : State × Option PyErr :=
  if c.pb.filled && !c.closed then (s, some .assertion) else (⟨s.xfs, s.curves ++ [c]⟩, none)

/-- One more curve with a transform of its own. -/
def State.addXf (s : State) (name : Str) (pb : PenBrush) (closed : Bool) (m : Mat3 ℝ) (cps : List (CP ℝ)) :
    State × Option PyErr :=
  if pb.filled && !closed then (s, some .assertion)
  else (⟨s.xfs ++ [m], s.curves ++ [⟨name, pb, closed, s.xfs.length, cps⟩]⟩, none)

/-- What each call does to the values. `make`: a curve with these values. `copy`: one more curve with the same values and the
same transform. `addOne`: one control point more in this curve. `restore`: the values of the other curve and a transform of its
own with the same matrix, if the numbers of control points are equal; else `GeomInternalError`, but name, pen, closed and transform
are taken over. `transform`: one more curve with the control points under the matrix after the transform of the curve.
`reversed`: one more curve with the control points backwards. `offset`: one more curve with offset control points. `turn`: the
control points start at another one. `setXf`: the transform of this curve, and of those which share it, is changed. -/
def State.step (s : State) : Op → State × Option PyErr
  | .make n pb c m vs => s.addXf n pb c m vs
  | .copy i =>
    match s.curves[i]? with
    | some c => s.add c
    | none => (s, some .attribute)
  | .addOne i =>
    match s.curves[i]? with
    | some c =>
      match X7.addOne c.cps with
      | .ok new => (⟨s.xfs, s.curves.set i { c with cps := new }⟩, none)
      | .error e => (s, some e)
    | none => (s, some .attribute)
  | .restore i j =>
    match s.curves[i]?, s.curves[j]? with
    | some c, some d =>
      match s.xfs[d.xf]? with
      | some m =>
        if c.cps.length = d.cps.length then
          (⟨s.xfs ++ [m], s.curves.set i { d with xf := s.xfs.length }⟩, none)
        else
          (⟨s.xfs ++ [m], s.curves.set i { d with xf := s.xfs.length, cps := c.cps }⟩, some .geomInternal)
      | none => (s, some .attribute)
    | _, _ => (s, some .attribute)
  | .transform i m =>
    match s.curves[i]? with
    | some c =>
      match s.xfs[c.xf]? with
      | some x => s.addXf c.name c.pb c.closed Mat3.one (c.cps.map fun v => v.transformLin (m.mul x).apply)
      | none => (s, some .attribute)
    | none => (s, some .attribute)
  | .reversed i =>
    match s.curves[i]? with
    | some c => s.add { c with cps := CP.reverseList c.cps }
    | none => (s, some .attribute)
  | .offset i off =>
    match s.curves[i]? with
    | some c =>
      match s.xfs[c.xf]? with
      | some x =>
        if c.pb.filled && !c.closed then (s, some .assertion)
        else
          match Elem.offsetCps (c.cps.map fun v => v.transformLin (Mat3.one.mul x).apply) off with
          | .error e => (s, some e)
          | .ok new => s.addXf (c.name ++ "_o".toList) c.pb c.closed Mat3.one new
      | none => (s, some .attribute)
    | none => (s, some .attribute)
  | .turn i k =>
    match s.curves[i]? with
    | some c => (⟨s.xfs, s.curves.set i { c with cps := c.cps.drop k ++ c.cps.take k }⟩, none)
    | none => (s, some .attribute)
  | .setXf i m =>
    match s.curves[i]? with
    | some c => (⟨s.xfs.set c.xf m, s.curves⟩, none)
    | none => (s, some .attribute)

/-- A history of calls. -/
def State.run (s : State) : List Op → State × List (Option PyErr)
  | [] => (s, [])
  | op :: ops =>
    let (s1, e) := s.step op
    let (s2, es) := s1.run ops
    (s2, e :: es)

/-- The present values of all curves. -/
def curveVals (h : Heap) : List CurveObj → Option (List Curve)
  | [] => some []
  | c :: cs =>
    match readCps h c.cps, curveVals h cs with
    | some vs, some rest => some (⟨c.name, c.pb, c.closed, c.xf, vs⟩ :: rest)
    | _, _ => none

/-- The present values of all objects. -/
def vals (h : Heap) : Option State :=
  match curveVals h h.curves with
  | some cs => some ⟨h.xfs, cs⟩
  | none => none

/-- No control point object is held twice, by one curve or by two; every curve has a transform. -/
structure Apart (h : Heap) : Prop where
  once : (h.curves.flatMap fun c => c.cps).Nodup
  xf : ∀ c ∈ h.curves, c.xf < h.xfs.length

/-- The curve, if any, whose control points or attributes are written by a call. -/
def Op.writes : Op → Option ℕ
  | .addOne i => some i
  | .restore i _ => some i
  | .turn i _ => some i
  | _ => none

/-- The curve that gets a control point more. -/
def Op.adds : Op → Option ℕ
  | .addOne i => some i
  | _ => none

/-- The curve that is restored. -/
def Op.restores : Op → Option ℕ
  | .restore i _ => some i
  | _ => none

/-- The closed line through the control points of curve `k`. -/
def Curve.outline (c : Curve) : Set (Pt ℝ) := Morph.trace (segs true c.cps)

end X7.CH
