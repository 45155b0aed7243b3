import Verif.Model.Elem
import Verif.Model.SelfIntersect
import Verif.Spec.Bezier

/-!
Model of `bez_intersect`, `bez_intersect_new` (x7/geom/bezier.py 147-205), of the part of `bez_self_intersect` (348-372) that looks for
intersections, and of `ElemCurve.self_intersect` (x7/geom/model.py 408-413). The rest of `bez_self_intersect` is in Model/SelfIntersect.

The package `bezier` is a parameter: `lib A B` stands for `A.intersect(B)`, a list of pairs of parameters, or `none` if it gives up with
`NotImplementedError`. `evaluate_multi` is taken to be the Bezier curve of the nodes. Plots and printing are left out.
-/

noncomputable section

namespace X7.Bzi

open Classical

/-- `bezier.Curve.intersect`. -/
abbrev Lib := Poly4 ℝ → Poly4 ℝ → Option (List (ℝ × ℝ))

/-- bezier.py:109-111 `bz_curve`. -/
def bzCurve (cp1 cp2 : CP ℝ) : Poly4 ℝ := ⟨cp1.c, cp1.r, cp2.l, cp2.c⟩

/-- bezier.py:175-205 `bez_intersect_new`: `(point, t, s)` for each intersection. -/
def bezIntersectNew (lib : Lib) (cpa1 cpa2 cpb1 cpb2 : CP ℝ) (endpoints : Bool) : List (Pt ℝ × ℝ × ℝ) :=
  let curve_a := bzCurve cpa1 cpa2
  let curve_b := bzCurve cpb1 cpb2
  let intersections := match lib curve_a curve_b with
    | some l => l
    | none => []
  let intersections := if !endpoints then intersections.filter fun ts => ¬(ts = (1, 0) ∨ ts = (0, 1)) else intersections
  intersections.map fun ts => (curve_a.at' ts.1, ts.1, ts.2)

/-- bezier.py:147-172 `bez_intersect(..., as_points=True)`. -/
def bezIntersectPts (lib : Lib) (cpa1 cpa2 cpb1 cpb2 : CP ℝ) (endpoints : Bool) : List (Pt ℝ) :=
  (bezIntersectNew lib cpa1 cpa2 cpb1 cpb2 endpoints).map fun r => r.1

/-- bezier.py:147-172 `bez_intersect(..., as_points=False)`: `list(zip(*pairs))` is empty for no pairs, else two lists. -/
def bezIntersectTs (lib : Lib) (cpa1 cpa2 cpb1 cpb2 : CP ℝ) (endpoints : Bool) : List (List ℝ) :=
  match bezIntersectNew lib cpa1 cpa2 cpb1 cpb2 endpoints with
  | [] => []
  | r => [r.map fun x => x.2.1, r.map fun x => x.2.2]

/-- bezier.py:353-355 do the two halves of a segment intersect? -/
def hitLib (lib : Lib) (cpa cpb : CP ℝ) : Bool :=
  let s := bezSplit cpa cpb (1 / 2)
  (bezIntersectNew lib s.1 s.2.1 s.2.1 s.2.2 false) ≠ []

/-- `itertools.combinations` of the indices of a list of length `n`, two at a time, in its order. -/
def combos (n : ℕ) : List (ℕ × ℕ) :=
  (List.range n).flatMap fun i => (List.range' (i + 1) (n - (i + 1))).map fun j => (i, j)

/-- bezier.py:367-369 one intersection of segments `i` and `j` appended to the lists of both. -/
def addIx (i j : ℕ) (acc : List (List (ℝ × Pt ℝ))) (x : Pt ℝ × ℝ × ℝ) : List (List (ℝ × Pt ℝ)) :=
  (acc.modify i (· ++ [(x.2.1, x.1)])).modify j (· ++ [(x.2.2, x.1)])

/-- bezier.py:363-370 the loop over all pairs of segments: the list of intersections of each segment. -/
def findIxs (lib : Lib) (cs : List (CP ℝ × CP ℝ)) : List (List (ℝ × Pt ℝ)) :=
  (combos cs.length).foldl (fun acc ij =>
    match cs[ij.1]?, cs[ij.2]? with
    | some a, some b => (bezIntersectNew lib a.1 a.2 b.1 b.2 false).foldl (addIx ij.1 ij.2) acc
    | _, _ => acc) (List.replicate cs.length [])

/-- bezier.py:348-525 `bez_self_intersect(orig_cps)`. -/
def selfIntersectLib (lib : Lib) (cps : List (CP ℝ)) : Except PyErr (List (List (CP ℝ))) :=
  selfIntersect (hitLib lib) (findIxs lib (allCurves (hitLib lib) cps)) cps

end X7.Bzi

namespace X7.Elem

open Bzi

/-- model.py:408-413 `ElemCurve.self_intersect()`; only curves have this method. The constructor checks `closed` (143-144), each time
with the same arguments. -/
def selfIntersect (lib : Lib) (e : Elem) : Except PyErr (List Elem) :=
  match e with
  | .curve h cps =>
    match selfIntersectLib lib (cps.map (·.transformLin h.xf.apply)) with
    | .error er => .error er
    | .ok [] => .ok []
    | .ok (c :: rest) =>
      match checkClosed h.pb h.closed with
      | .error er => .error er
      | .ok _ => .ok ((c :: rest).mapIdx fun idx cps => .curve ⟨h.name ++ "_i".toList ++ fmtNat idx, h.pb, h.closed, Mat3.one⟩ cps)
  | _ => .error .attribute

end X7.Elem
