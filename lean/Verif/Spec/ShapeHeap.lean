import Verif.Model.ShapeHeap

namespace X7.SH

/-- Point object `i` is one of the two points of shape `k`. -/
def Owns (w : World) (k i : ℕ) : Prop := ∃ s, w.shapes[k]? = some s ∧ (i = s.p1 ∨ i = s.p2)

/-- Point object `i` is the first (or second) point of shape `k`. -/
def First (w : World) (k i : ℕ) : Prop := ∃ s, w.shapes[k]? = some s ∧ i = s.p1
def Second (w : World) (k i : ℕ) : Prop := ∃ s, w.shapes[k]? = some s ∧ i = s.p2

/-- Shapes `k` and `m` have the same transform object. -/
def SameXf (w : World) (k m : ℕ) : Prop := ∃ s o, w.shapes[k]? = some s ∧ w.shapes[m]? = some o ∧ s.xf = o.xf

/-- The shape with its first (or second) point somewhere else. -/
def withFirst (p : Pt ℝ) : Elem → Elem
  | .rect h _ p2 => .rect h p p2
  | .ellipse h _ p2 => .ellipse h p p2
  | .rrect h _ p2 r => .rrect h p p2 r
  | e => e
def withSecond (p : Pt ℝ) : Elem → Elem
  | .rect h p1 _ => .rect h p1 p
  | .ellipse h p1 _ => .ellipse h p1 p
  | .rrect h p1 _ r => .rrect h p1 p r
  | e => e

/-- The first (or second) point of a shape. -/
def first : Elem → Option (Pt ℝ)
  | .rect _ p1 _ => some p1
  | .ellipse _ p1 _ => some p1
  | .rrect _ p1 _ _ => some p1
  | _ => none
def second : Elem → Option (Pt ℝ)
  | .rect _ _ p2 => some p2
  | .ellipse _ _ p2 => some p2
  | .rrect _ _ p2 _ => some p2
  | _ => none

/-- The shape with another transform. -/
def withXf (m : Mat3 ℝ) : Elem → Elem
  | .rect h p1 p2 => .rect { h with xf := m } p1 p2
  | .ellipse h p1 p2 => .ellipse { h with xf := m } p1 p2
  | .rrect h p1 p2 r => .rrect { h with xf := m } p1 p2 r
  | e => e

/-- The values have the same class. -/
def SameCls : Elem → Elem → Prop
  | .rect .., .rect .. => True
  | .ellipse .., .ellipse .. => True
  | .rrect .., .rrect .. => True
  | _, _ => False

/-- The call is meant to change shape `k`, or moves one of its points, or changes the transform object it has. -/
def Writes (w : World) (k : ℕ) : Op → Prop
  | .movePt i _ => Owns w k i
  | .setXf m _ => SameXf w k m
  | .restore m _ => m = k
  | .update m _ => m = k
  | _ => False

/-- No call of the history writes shape `k`. -/
def Spared (k : ℕ) : World → List Op → Prop
  | _, [] => True
  | w, op :: ops => ¬ Writes w k op ∧ Spared k (step w op).1 ops

end X7.SH

namespace X7.SH

/-- A shape of the class of `a` (with the radius of `a`, if it has one) which has everything else from `b`. -/
def clsOf (a b : Elem) (p1 p2 : Pt ℝ) : Elem :=
  match a with
  | .ellipse .. => .ellipse b.hdr p1 p2
  | .rrect _ _ _ r => .rrect b.hdr p1 p2 r
  | _ => .rect b.hdr p1 p2

/-- A rounded rectangle. -/
def Rounded : Elem → Prop
  | .rrect .. => True
  | _ => False

end X7.SH
