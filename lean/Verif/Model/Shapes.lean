import Verif.Model.Bezier

/-!
Model of the control point generators of x7/geom/model.py: `make_rounded_rect_cps` (669-704), `make_ellipse_p1p2_cps`
(707-709), `make_ellipse_cps` (712-726). Over ℝ, exact.
-/

noncomputable section

namespace X7

/-- model.py:670, 714 `4/3 * math.tan(math.radians(90/4))`. -/
def bez90 : ℝ := 4 / 3 * Real.tan (radians (90 / 4))

/-- model.py:712-726 `make_ellipse_cps(center, r_x, r_y)`; `r_y` given (`None` means `r_x`). -/
def makeEllipseCps (center : Pt ℝ) (r_x r_y : ℝ) : List (CP ℝ) :=
  let vr : Vec ℝ := ⟨r_x, 0⟩
  let vrb := vr.mul bez90
  let vu : Vec ℝ := ⟨0, r_y⟩
  let vub := vu.mul bez90
  [⟨center.addVector vr, vub, vub.neg, "smooth"⟩,
   ⟨center.subVec vu, vrb, vrb.neg, "smooth"⟩,
   ⟨center.subVec vr, vub.neg, vub, "smooth"⟩,
   ⟨center.addVector vu, vrb.neg, vrb, "smooth"⟩]

/-- model.py:707-709 `make_ellipse_p1p2_cps`. -/
def makeEllipseP1P2 (p1 p2 : Pt ℝ) : Except PyErr (List (CP ℝ)) := do
  let bb := BBox.ofPts p1 p2
  let center ← bb.center
  .ok (makeEllipseCps center (bb.width / 2) (bb.height / 2))

/-- model.py:685-686 `ab.unit()*new_radius if ab_len else Vector(0, 0)`. -/
def cornerSide (v : Vec ℝ) (len new_radius : ℝ) : Except PyErr (Vec ℝ) :=
  if len ≠ 0 then v.unit.map (·.mul new_radius) else .ok ⟨0, 0⟩

/-- model.py:687-688 `min(ab_len - new_radius, new_radius)/new_radius if new_radius else 0`. -/
def cornerScale (len new_radius : ℝ) : Except PyErr ℝ :=
  if new_radius ≠ 0 then pyDiv (min (len - new_radius) new_radius) new_radius else .ok 0

/-- model.py:677-694 the body of the first loop of `make_rounded_rect_cps` for one corner `b` between `a` and `c`. -/
def roundedCorner (radius : ℝ) (a b c : Pt ℝ) : Except PyErr (CP ℝ × CP ℝ) := do
  let ab := a.sub b
  let cb := c.sub b
  let ab_len := ab.length / 2
  let cb_len := cb.length / 2
  let new_radius := min radius (min ab_len cb_len)
  let ab ← cornerSide ab ab_len new_radius
  let cb ← cornerSide cb cb_len new_radius
  let ab_scale ← cornerScale ab_len new_radius
  let cb_scale ← cornerScale cb_len new_radius
  let bab := b.addVector ab
  let bcb := b.addVector cb
  let ab := ab.mul bez90
  let cb := cb.mul bez90
  .ok (⟨bab, ab.mul ab_scale, ab.neg, "smooth"⟩, ⟨bcb, cb.neg, cb.mul cb_scale, "smooth"⟩)

open Classical in
/-- model.py:697-702 one round of the loop that removes duplicates: `a, b, c` are `cps[i], cps[i+1], cps[i+2]` (indices
modulo the length), `cps` holds the current values (`b.dr` is assigned in place), `out` the control points kept. -/
def dedupeStep (s : List (CP ℝ) × List (CP ℝ)) (i : ℕ) : List (CP ℝ) × List (CP ℝ) :=
  let cps := s.1
  let n := cps.length
  match cps[i]?, cps[(i + 1) % n]?, cps[(i + 2) % n]? with
  | some a, some b, some c =>
    if b.c = c.c then
      let b' := { b with dr := c.dr }
      (cps.set ((i + 1) % n) b', s.2 ++ [b'])
    else if b.c = a.c then s
    else (cps, s.2 ++ [b])
  | _, _, _ => s

/-- model.py:696-703 the whole loop. -/
def dedupe (cps : List (CP ℝ)) : List (CP ℝ) :=
  ((List.range cps.length).foldl dedupeStep (cps, [])).2

/-- model.py:669-704 `make_rounded_rect_cps(p1, p2, radius)`. `clipped` is set in every round because
`new_radius <= radius` always holds, so duplicates are always removed. -/
def makeRoundedRect (p1 p2 : Pt ℝ) (radius : ℝ) : Except PyErr (List (CP ℝ)) := do
  let pts : List (Pt ℝ) := [p1, ⟨p1.x, p2.y⟩, p2, ⟨p2.x, p1.y⟩]
  let pairs ← (iterRotate3m1 pts).mapM fun abc => roundedCorner radius abc.1 abc.2.1 abc.2.2
  let cps := pairs.flatMap fun lr => [lr.1, lr.2]
  .ok (dedupe cps)

end X7
