import Verif.Model.Ieee
import Verif.Model.Line
import Verif.Model.VecField

/-!
Lines, unit vectors (x7/geom/geom.py) and normalised fields (x7/geom/vec_field.py) with floats of finite range, infinities and NaN.
See Model/Ieee.lean. `hyp` is `math.hypot`.
Simplification: the coordinates are Python floats, whose division by zero raises; numpy's floats, which some transforms return, warn
and give an infinity or NaN.
-/

noncomputable section

namespace X7.Fmt
open NB
variable (F : Fmt)

/-- A float, infinity or NaN. -/
abbrev N := Num EReal

open scoped Classical in
/-- Python's `a / b`. -/
def div (a b : N) : Except PyErr N :=
  match b with
  | .nan => .ok .nan
  | .num b =>
    if b = 0 then .error .zeroDivision
    else match a with
      | .nan => .ok .nan
      | .num a =>
        if b = ⊤ ∨ b = ⊥ then (if a = ⊤ ∨ a = ⊥ then .ok .nan else .ok (fin 0))
        else if a = ⊤ ∨ a = ⊥ then .ok (.num (a * b))
        else .ok (F.toF (a.toReal / b.toReal))

/-- geom.py:404-408 point minus point. -/
def sub2 (p q : Pt N) : Vec N := ⟨F.sub p.x q.x, F.sub p.y q.y⟩

/-- geom.py:179-186, 391-396 point plus Vector. -/
def addVec (p : Pt N) (v : Vec N) : Pt N := ⟨F.add p.x v.x, F.add p.y v.y⟩

/-- geom.py:197-203 Vector times number. -/
def smul (v : Vec N) (t : N) : Vec N := ⟨F.mul v.x t, F.mul v.y t⟩

/-- geom.py:153-156 `normal`. -/
def normal (v : Vec N) : Vec N := ⟨v.y, neg v.x⟩

/-- geom.py:158-162 `dot`. -/
def dot (v w : Vec N) : N := F.add (F.mul v.x w.x) (F.mul v.y w.y)

/-- geom.py:164-168 `cross`. -/
def cross (v w : Vec N) : N := F.sub (F.mul v.x w.y) (F.mul v.y w.x)

/-- geom.py:145-151 `unit`. -/
def unit (hyp : N → N → N) (v : Vec N) : Except PyErr (Vec N) :=
  let length := hyp v.x v.y
  if eq length (fin 0) then .error .zeroDivision
  else match F.div v.x length, F.div v.y length with
    | .ok x, .ok y => .ok ⟨x, y⟩
    | .error e, _ => .error e
    | _, .error e => .error e

/-- geom.py:878-879 `parallel`. -/
def parallel (l o : Line N) : Bool := eq (F.cross l.direction o.direction) (fin 0)

/-- geom.py:871-872, 889-890, 893-894 the place on `o` where it meets `l`. -/
def lineT (l o : Line N) : Except PyErr N :=
  F.div (F.dot (normal l.direction) (F.sub2 l.origin o.origin)) (F.dot (normal l.direction) o.direction)

/-- geom.py:873, 899-900 `origin + direction*t`. -/
def lineAt (l : Line N) (t : N) : Pt N := F.addVec l.origin (F.smul l.direction t)

/-- geom.py:865-873 `intersection`. -/
def intersection (l o : Line N) : Except PyErr (Pt N) :=
  if eq (F.cross l.direction o.direction) (fin 0) then .error .parallelLine
  else match F.lineT l o with
    | .error e => .error e
    | .ok t_other => .ok (F.lineAt o t_other)

/-- geom.py:857-863 `closest`. -/
def closest (hyp : N → N → N) (l : Line N) (point : Pt N) : Except PyErr (Pt N) :=
  let to_point := F.sub2 point l.origin
  match F.unit hyp l.direction with
  | .error e => .error e
  | .ok d_unit => .ok (F.addVec l.origin (F.smul d_unit (F.dot to_point d_unit)))

/-- geom.py:875-876 `segment_bbox`. -/
def segmentBBox (l : Line N) : BBox N := NB.ofPts l.origin (F.addVec l.origin l.direction)

/-- geom.py:881-904 `segment_intersection`. -/
def segmentIntersection (hyp : N → N → N) (l o : Line N) : Except PyErr (Option (Pt N × N × N)) :=
  match NB.overlaps (F.segmentBBox l) (F.segmentBBox o) with
  | .error e => .error e
  | .ok false => .ok none
  | .ok true =>
    if F.parallel l o then .error .parallelLine
    else match F.lineT l o with
      | .error e => .error e
      | .ok t_other =>
        if lt t_other (fin 0) || lt (fin 1) t_other then .ok none
        else match F.lineT o l with
          | .error e => .error e
          | .ok t_self =>
            if lt t_self (fin 0) || lt (fin 1) t_self then .ok none
            else
              let p_other := F.lineAt o t_other
              let p_self := F.lineAt l t_self
              let d := F.sub2 p_self p_other
              if !lt (hyp d.x d.y) (F.toF (1 / 10 ^ 7)) then .error .assertion
              else .ok (some (F.lineAt o t_other, t_self, t_other))

/-! ### Fields -/

/-- A field of floats; see `VF.Field`. -/
structure FField where
  n : ℕ
  vx : ℕ → ℕ → N
  vy : ℕ → ℕ → N

/-- `np.sqrt`: the rounded square root; NaN for negative numbers. -/
def sqrt : N → N
  | .nan => .nan
  | .num a => if a = ⊤ then .num ⊤ else if a < 0 then .nan else F.toF (√ a.toReal)

/-- The greater of two numbers, NaN if one of them is. -/
def npMax : N → N → N
  | .num a, .num b => .num (max a b)
  | _, _ => .nan

/-- `np.amax` of an `n × n` array, `n ≥ 1`. -/
def npAmax (n : ℕ) (a : ℕ → ℕ → N) : N :=
  ((List.range n).flatMap fun i => (List.range n).map fun j => a i j).foldl npMax (a 0 0)

open scoped Classical in
/-- `1 / a` for a float of numpy: infinite for zero (with a warning). -/
def npInv : N → N
  | .nan => .nan
  | .num a => if a = 0 then .num ⊤ else if a = ⊤ ∨ a = ⊥ then fin 0 else F.toF (1 / a.toReal)

/-- vec_field.py:103 the magnitudes. -/
def FField.mag (f : FField) (i j : ℕ) : N := F.sqrt (F.add (F.mul (f.vx i j) (f.vx i j)) (F.mul (f.vy i j) (f.vy i j)))

/-- vec_field.py:102-107 `normalized()`. -/
def FField.normalized (f : FField) : Except PyErr FField :=
  if f.n = 0 then .error .value
  else
    let maxMag := npAmax f.n (f.mag F)
    .ok ⟨f.n, fun i j => F.mul (f.vx i j) (F.npInv maxMag), fun i j => F.mul (f.vy i j) (F.npInv maxMag)⟩

end X7.Fmt
