import Mathlib.Algebra.Order.Floor.Ring
import Verif.Model.PointHeap
import Verif.Model.Bezier

/-!
Model of rounding in x7/geom: `Vector` (geom.py 103-107), `VectorRelative` (239-243), `BasePoint` (304-308), `Point` (440-444),
`BBox.__round__` (622-623, modelled in Model/BBox.lean with the rounding of a number as a parameter) and `ControlPoint.round`
(bezier.py 94-96). Numbers are exact: the built-in `round(x, n)` of Python is taken to be rounding to `n` decimals with ties to even.
`round(x)` and `round(x, None)` have the same value as `round(x, 0)`.
-/

namespace X7
variable {K : Type*} [Field K] [LinearOrder K] [IsStrictOrderedRing K] [FloorRing K]

/-- The built-in `round(x)`: the nearest integer, ties to even. -/
def roundHE (x : K) : ℤ :=
  let k := ⌊x⌋
  if x - k < 1 / 2 then k else if 1 / 2 < x - k then k + 1 else if k % 2 = 0 then k else k + 1

/-- The built-in `round(x, n)`. -/
def roundTo (n : ℤ) (x : K) : K := (roundHE (x * 10 ^ n) : K) / 10 ^ n

/-- geom.py:103-107 `Vector.__round__`, `Vector.round`. -/
def Vec.round (n : ℤ) (v : Vec K) : Vec K := ⟨roundTo n v.x, roundTo n v.y⟩

/-- geom.py:440-444 `Point.__round__`, `Point.round` (the position; names are in `PH.roundObj`). -/
def Pt.round (n : ℤ) (p : Pt K) : Pt K := ⟨roundTo n p.x, roundTo n p.y⟩

/-- bezier.py:94-96 `ControlPoint.round`, with a plain centre and plain handles. -/
def CP.round (n : ℤ) (cp : CP K) : CP K := ⟨cp.c.round n, cp.dl.round n, cp.dr.round n, cp.kind⟩

namespace PH

/-- `round(n)` of a point or plain vector, the object that is returned: geom.py:440-444 (Point keeps its name), 304-308 with 320-321
(other points go through `fixed()`), 103-107 (Vector). -/
def roundObj (n : ℤ) (h : Heap K) (i : ℕ) : Except PyErr (PObj K) :=
  match h[i]? with
  | some (.point x y nm) => .ok (.point (roundTo n x) (roundTo n y) nm)
  | some (.rel _ _ _ nm) =>
    match xy h i with
    | .ok p => .ok (.point (roundTo n p.x) (roundTo n p.y) (fixedName nm))
    | .error e => .error e
  | some (.pcalc _ _ nm) =>
    match xy h i with
    | .ok p => .ok (.point (roundTo n p.x) (roundTo n p.y) (fixedName nm))
    | .error e => .error e
  | some (.vec x y) => .ok (.vec (roundTo n x) (roundTo n y))
  | _ => .error .attribute

/-- `round(n)` as a call: the heap afterwards, the new object last. geom.py:239-243 for `VectorRelative`: its two points are rounded
and a new `VectorRelative` over them is made. The object made by `fixed()` on the way is not kept: nothing refers to it. -/
def roundStep (n : ℤ) (h : Heap K) (i : ℕ) : Heap K × Option PyErr :=
  match h[i]? with
  | some (.vecRel p q) =>
    match roundObj n h p with
    | .ok a =>
      match roundObj n h q with
      | .ok b => (h ++ [a, b, .vecRel h.length (h.length + 1)], none)
      | .error e => (h, some e)
    | .error e => (h, some e)
  | _ =>
    match roundObj n h i with
    | .ok o => (h ++ [o], none)
    | .error e => (h, some e)

end PH

/-- geom.py:298-299 `BasePoint.close`, on positions. -/
def Pt.close (p q : Pt ℝ) (max_delta : ℝ) : Prop := (p.sub q).length < max_delta

/-- bezier.py:37-42 `ControlPoint.close`. -/
def CP.close (a b : CP ℝ) (max_delta : ℝ) : Prop :=
  a.kind = b.kind ∧ a.c.close b.c max_delta ∧ a.dl.close b.dl max_delta ∧ a.dr.close b.dr max_delta

end X7
