import Verif.Model.IeeeLine
import Verif.Model.RndAnim

/-!
Curves (x7/geom/bezier.py), their boxes (x7/geom/model.py) and animated points (x7/geom/anim.py) with floats of finite range,
infinities and NaN. See Model/Ieee.lean; the functions are those of Model/Rnd.lean and Model/RndAnim.lean.
-/

noncomputable section

namespace X7.Fmt
open NB
variable (F : Fmt)

/-- bezier.py:98-101 `ControlPoint.l`. -/
def cpL (cp : CP N) : Pt N := F.addVec cp.c cp.dl

/-- bezier.py:103-106 `ControlPoint.r`. -/
def cpR (cp : CP N) : Pt N := F.addVec cp.c cp.dr

/-- bezier.py:63-67 `ControlPoint.bbox`. -/
def cpBBox (cp : CP N) : BBox N := NB.grow (NB.ofPts (F.cpL cp) (F.cpR cp)) cp.c

/-- model.py:472-477 `ElemCurve.bbox_int`, see `bboxCps`. -/
def curveBBox (cps : List (CP N)) : Except PyErr (BBox N) :=
  match cps with
  | [] => .error .index
  | cp :: rest => .ok (rest.foldl (fun bb cp => NB.add bb (F.cpBBox cp)) (F.cpBBox cp))

/-- bezier.py:636-637 the local function `mid` of `bez_split`: `p + t*(q-p)`. -/
def lerp (t : N) (p q : Pt N) : Pt N := F.addVec p (F.smul (F.sub2 q p) t)

/-- bezier.py:633-651 `bez_split(cp1, cp2, t)`, see `bezSplit`. -/
def bezSplit (cp1 cp2 : CP N) (t : N) : CP N × CP N × CP N :=
  let a := cp1.c
  let b := F.cpR cp1
  let c := F.cpL cp2
  let d := cp2.c
  let ab := F.lerp t a b
  let bc := F.lerp t b c
  let cd := F.lerp t c d
  let abc := F.lerp t ab bc
  let bcd := F.lerp t bc cd
  let abcd := F.lerp t abc bcd
  (⟨a, cp1.dl, F.sub2 ab a, "smooth"⟩, ⟨abcd, F.sub2 abc abcd, F.sub2 bcd abcd, "smooth"⟩, ⟨d, F.sub2 cd d, cp2.dr, "smooth"⟩)

/-- bezier.py:671-672 `s3 * a + 3 * s2t * b + 3 * st2 * c + t3 * d`, one coordinate. -/
def bezSum (s3 s2t st2 t3 a b c d : N) : N :=
  F.add (F.add (F.add (F.mul s3 a) (F.mul (F.mul (fin 3) s2t) b)) (F.mul (F.mul (fin 3) st2) c)) (F.mul t3 d)

/-- bezier.py:662-673 the body of the loop of `bez` for one `t`, see `bezAt`. -/
def bezAt (a b c d : Pt N) (t : N) : Pt N :=
  let t2 := F.mul t t
  let t3 := F.mul t t2
  let s := F.sub (fin 1) t
  let s2 := F.mul s s
  let s3 := F.mul s s2
  let s2t := F.mul s2 t
  let st2 := F.mul s t2
  ⟨F.bezSum s3 s2t st2 t3 a.x b.x c.x d.x, F.bezSum s3 s2t st2 t3 a.y b.y c.y d.y⟩

/-- bezier.py:654-674 `bez(..., as_xy=True)`, see `bezXY`: the parameter is the rounded quotient of two ints. -/
def bezXY (a b c d : Pt N) (steps : ℕ) : List (Pt N) :=
  [a] ++ ((List.range' 1 (steps - 1)).map fun (ti : ℕ) => F.bezAt a b c d (F.toF ((ti : ℝ) / (steps : ℝ)))) ++ [d]

/-- bezier.py:654-678 `bez(..., as_xy=False)`. -/
def bez (a b c d : Pt N) (steps : ℕ) : List N := xyFlatten (F.bezXY a b c d steps)

/-- bezier.py:681-697 `bez_path(transform, cps, closed, steps)`, see `bezPath`; `f` is what `transform_pts` does to each
point. -/
def bezPath (f : Pt N → Pt N) (cps : List (CP N)) (closed : Bool) (steps : ℕ) : List N :=
  if cps.isEmpty then []
  else
    let extra := if closed then cps else []
    (cps.zip (cps.tail ++ extra)).foldl (fun pts pq =>
      let bez_pts := F.bez (f pq.1.c) (f (F.cpR pq.1)) (f (F.cpL pq.2)) (f pq.2.c) steps
      if pts.length ≠ 0 then pts ++ bez_pts.drop 2 else pts ++ bez_pts) []

/-- anim.py:219-224 `AnimationLinear.update`: the new coordinates of the point for the times `tx`, `ty` of the two coordinates. -/
def animLinear (orig target : Pt N) (tx ty : N) : Pt N :=
  let sx := F.sub (fin 1) tx
  let sy := F.sub (fin 1) ty
  ⟨F.add (F.mul sx orig.x) (F.mul tx target.x), F.add (F.mul sy orig.y) (F.mul ty target.y)⟩

/-- anim.py:337-339, 406-408 `o + t * (tgt - o)` for vectors (geom.py:179-195, 205-206), see `Morph.mixVec`. -/
def mixVec (t : N) (o g : Vec N) : Vec N :=
  ⟨F.add o.x (F.mul (F.sub g.x o.x) t), F.add o.y (F.mul (F.sub g.y o.y) t)⟩

/-- anim.py:337-339, 406-408 one control point of a morph at time `t`, see `Morph.mixCP`. -/
def mixCP (t : N) (m o g : CP N) : CP N := ⟨F.lerp t o.c g.c, F.mixVec t o.dl g.dl, F.mixVec t o.dr g.dr, m.kind⟩

end X7.Fmt
