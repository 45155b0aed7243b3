import Verif.Model.BBox
import Verif.Model.Mat3
import Verif.Model.VecReal

/-!
Model of the Bezier part of x7/geom/bezier.py: `ControlPoint` (20-106), `bez_split` (633-651), `bez` (654-678),
`bez_path` (681-697), and of the curve helpers of x7/geom/model.py `ElemCurve`: `bbox_int` (472-477), `add_one` (487-504),
`offset_pt` (416-439), `offset` (441-470).

Control points are values: the names of their points and sharing of point objects between control points are not
represented here (see Model/PointHeap for mutable points).
-/

namespace X7
variable {K : Type*} [Field K]

/-- bezier.py:23-27 `ControlPoint(c, dl, dr, kind)`. -/
@[ext] structure CP (K : Type*) where
  c : Pt K
  dl : Vec K
  dr : Vec K
  kind : String
  deriving DecidableEq

namespace CP

/-- bezier.py:98-101 `l`. -/
def l (cp : CP K) : Pt K := cp.c.addVector cp.dl

/-- bezier.py:103-106 `r`. -/
def r (cp : CP K) : Pt K := cp.c.addVector cp.dr

/-- bezier.py:46-48 `reversed`. -/
def reversed (cp : CP K) : CP K := ⟨cp.c, cp.dr, cp.dl, cp.kind⟩

/-- bezier.py:50-53 `reverse_list`. -/
def reverseList (cps : List (CP K)) : List (CP K) := cps.reverse.map reversed

/-- bezier.py:63-67 `bbox`. -/
def bbox [LinearOrder K] (cp : CP K) : BBox K := (BBox.ofPts cp.l cp.r).grow cp.c

/-- bezier.py:76-82 the common part of `transform`: `f` is the transformer's `transform_pt`. -/
def transformLin (cp : CP K) (f : Pt K → Pt K) : CP K :=
  let t_c := f cp.c
  let t_l := f cp.l
  let t_r := f cp.r
  ⟨t_c, t_l.sub t_c, t_r.sub t_c, cp.kind⟩

/-- bezier.py:76-92 `transform` with a transformer whose `LINEAR` is False. -/
noncomputable def transformNonlin (cp : CP ℝ) (f : Pt ℝ → Pt ℝ) : Except PyErr (CP ℝ) :=
  let cp := cp.transformLin f
  if cp.kind = "very-smooth" then do
    let dr ← (cp.dr.sub cp.dl).truediv 2
    .ok { cp with dr := dr, dl := dr.neg }
  else if cp.kind = "smooth" then
    if cp.dl.toBool || cp.dr.toBool then do
      let direction ← (cp.dr.sub cp.dl).unit
      .ok { cp with dr := direction.mul cp.dr.length, dl := direction.mul (-cp.dl.length) }
    else .ok cp
  else .ok cp

end CP

/-- bezier.py:636-637 the local function `mid`: `p + t*(q-p)`. -/
def lerp (t : K) (p q : Pt K) : Pt K := p.addVector ((q.sub p).mul t)

/-- bezier.py:633-651 `bez_split(cp1, cp2, t)`. The three results have the default kind. -/
def bezSplit (cp1 cp2 : CP K) (t : K) : CP K × CP K × CP K :=
  let a := cp1.c
  let b := cp1.r
  let c := cp2.l
  let d := cp2.c
  let ab := lerp t a b
  let bc := lerp t b c
  let cd := lerp t c d
  let abc := lerp t ab bc
  let bcd := lerp t bc cd
  let abcd := lerp t abc bcd
  (⟨a, cp1.dl, ab.sub a, "smooth"⟩, ⟨abcd, abc.sub abcd, bcd.sub abcd, "smooth"⟩, ⟨d, cd.sub d, cp2.dr, "smooth"⟩)

/-- bezier.py:662-673 the body of the loop of `bez` for one `t`. -/
def bezAt (a b c d : Pt K) (t : K) : Pt K :=
  let t2 := t * t
  let t3 := t * t2
  let s := 1 - t
  let s2 := s * s
  let s3 := s * s2
  let s2t := s2 * t
  let st2 := s * t2
  ⟨s3 * a.x + 3 * s2t * b.x + 3 * st2 * c.x + t3 * d.x,
   s3 * a.y + 3 * s2t * b.y + 3 * st2 * c.y + t3 * d.y⟩

/-- bezier.py:654-674 `bez(..., as_xy=True)`. `range(1, steps)`; steps as a natural number (for steps ≤ 0 the Python range
is empty as it is here for 0). -/
def bezXY (a b c d : Pt K) (steps : ℕ) : List (Pt K) :=
  [a] ++ ((List.range' 1 (steps - 1)).map fun (ti : ℕ) => bezAt a b c d ((ti : K) / (steps : K))) ++ [d]

/-- `x7.lib.iters.xy_flatten` (library assumption): the coordinates in order. -/
def xyFlatten (ps : List (Pt K)) : List K := ps.flatMap fun p => [p.x, p.y]

/-- bezier.py:654-678 `bez(..., as_xy=False)`. -/
def bez (a b c d : Pt K) (steps : ℕ) : List K := xyFlatten (bezXY a b c d steps)

/-- bezier.py:681-697 `bez_path(transform, cps, closed, steps)`; `f` is what `transform_pts` does to each point. -/
def bezPath (f : Pt K → Pt K) (cps : List (CP K)) (closed : Bool) (steps : ℕ) : List K :=
  if cps.isEmpty then []
  else
    let extra := if closed then cps else []
    (cps.zip (cps.tail ++ extra)).foldl (fun pts pq =>
      let bez_pts := bez (f pq.1.c) (f pq.1.r) (f pq.2.l) (f pq.2.c) steps
      if pts.length ≠ 0 then pts ++ bez_pts.drop 2 else pts ++ bez_pts) []

/-- model.py:472-477 `ElemCurve.bbox_int`: an empty list raises `IndexError`. -/
def bboxCps [LinearOrder K] (cps : List (CP K)) : Except PyErr (BBox K) :=
  match cps with
  | [] => .error .index
  | cp :: rest => .ok (rest.foldl (fun bb cp => bb.add cp.bbox) cp.bbox)

/-- The index of the largest element, the last one in case of ties; `best` is the best so far, at index `bi`, and the list
starts at index `i`. -/
noncomputable def lastMaxFrom (best : ℝ) (bi : ℕ) : ℕ → List ℝ → ℕ
  | _, [] => bi
  | i, v :: vs => if best ≤ v then lastMaxFrom v i (i + 1) vs else lastMaxFrom best bi (i + 1) vs

/-- model.py:495-497 `sorted((dist, idx) ...)[-1][1]`: the lexicographic maximum. -/
noncomputable def lastMax : List ℝ → Option ℕ
  | [] => none
  | v :: vs => some (lastMaxFrom v 0 1 vs)

/-- model.py:487-504 `ElemCurve.add_one`: the new list of control points. The control points of the list are distinct
objects. No control points: `dists[-1]` raises `IndexError`. -/
noncomputable def addOne (cps : List (CP ℝ)) : Except PyErr (List (CP ℝ)) :=
  let dists := (iterRotate2 cps).map fun ab => (ab.1.c.sub ab.2.c).length
  match lastMax dists with
  | none => .error .index
  | some idx =>
    let left := idx % cps.length
    let right := (left + 1) % cps.length
    match cps[left]?, cps[right]? with
    | some p, some q =>
      let (l, m, r) := bezSplit p q (1 / 2)
      .ok (((cps.set left l).set right r).insertIdx right m)
    | _, _ => .error .index

/-- model.py:361 `OFFSET_PT_LIMIT`. -/
def offsetLimit : ℝ := 100

open Classical in
/-- model.py:415-439 `ElemCurve.offset_pt(dl, pt, dr, offset)`. -/
noncomputable def offsetPt (dl : Vec ℝ) (pt : Pt ℝ) (dr : Vec ℝ) (offset : ℝ) : Except PyErr (Pt ℝ) :=
  if dl = ⟨0, 0⟩ ∨ dr = ⟨0, 0⟩ then .ok pt
  else do
    let dl ← dl.unit
    let dr ← dr.unit
    if |dl.cross dr| < 1 / 10 ^ 10 then
      .ok (pt.addVector (dl.normal.mul offset))
    else
      let v_offset ← (dr.add dl).unit
      let sin_theta := v_offset.cross dl
      let scale ← pyDiv offset sin_theta
      let scale := if |scale| > offsetLimit then offsetLimit else scale
      .ok (pt.addVector (v_offset.mul scale))

end X7
