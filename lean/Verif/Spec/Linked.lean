import Verif.Model.Linked
import Verif.Spec.PointHeap
import Verif.Spec.Morph
import Verif.Spec.Bezier

namespace X7.LK
open PH

open Classical in
/-- How far the point `i` goes along when the plain point `b` is moved: all the way if it hangs on `b`, otherwise not at all. -/
noncomputable def follow (h : Heap ℝ) (b i : ℕ) : ℝ := if Depends h i b then 1 else 0

/-- How far the vector `i` goes along: a difference of two points as much as its end more than its start. -/
noncomputable def swing (h : Heap ℝ) (b i : ℕ) : ℝ :=
  match h[i]? with
  | some (.vecRel p q) => follow h b p - follow h b q
  | _ => 0

/-- A control point moved by `(dx, dy)`. -/
def shift (dx dy : ℝ) (v : CP ℝ) : CP ℝ := ⟨⟨v.c.x + dx, v.c.y + dy⟩, v.dl, v.dr, v.kind⟩

/-- The point of the plane moved by `(dx, dy)`. -/
def shiftPt (dx dy : ℝ) (p : Pt ℝ) : Pt ℝ := ⟨p.x + dx, p.y + dy⟩

/-- The control point `p` is carried along by the plain point `b` as a whole. -/
def Rides (w : World) (b p : ℕ) : Prop :=
  ∃ o, w.cps[p]? = some o ∧ Depends w.pts o.c b ∧ swing w.pts b o.dl = 0 ∧ swing w.pts b o.dr = 0

/-- The control point `p` has nothing to do with the plain point `b`. -/
def Stays (w : World) (b p : ℕ) : Prop :=
  ∃ o, w.cps[p]? = some o ∧ ¬ Depends w.pts o.c b ∧ swing w.pts b o.dl = 0 ∧ swing w.pts b o.dr = 0

/-- `Uses h i j`: reading object `i` reads object `j`. -/
inductive Uses (h : Heap ℝ) : ℕ → ℕ → Prop
  | self {i} : Uses h i i
  | rel {i dx dy b n j} : h[i]? = some (.rel dx dy b n) → Uses h b j → Uses h i j
  | pcalc {i r s n j} : h[i]? = some (.pcalc r s n) → Uses h r j → Uses h i j
  | fst {i p q j} : h[i]? = some (.vecRel p q) → Uses h p j → Uses h i j
  | snd {i p q j} : h[i]? = some (.vecRel p q) → Uses h q j → Uses h i j

/-- Reading the control point `p` reads object `j`. -/
def CpUses (w : World) (p j : ℕ) : Prop :=
  ∃ o, w.cps[p]? = some o ∧ (Uses w.pts o.c j ∨ Uses w.pts o.dl j ∨ Uses w.pts o.dr j)

/-- The call sets the coordinates (or delta or scale) of the point or vector object `j`. -/
def Sets (j : ℕ) : Op → Prop
  | .pts op => Mutates j op
  | _ => False

/-- The curve `k` has the control point `p`. -/
def Has (w : World) (k p : ℕ) : Prop := ∃ c, w.curves[k]? = some c ∧ p ∈ c.cps

/-- The call may put other objects into the control point `p`. -/
def Touches (w : World) (p : ℕ) : Op → Prop
  | .restoreCp i _ => i = p
  | .restore k _ => Has w k p
  | .addOne k => Has w k p
  | _ => False

/-- No call of the history puts other objects into a control point in `P`. -/
def Spared (P : ℕ → Prop) : World → List Op → Prop
  | _, [] => True
  | w, op :: ops => (∀ p, P p → ¬ Touches w p op) ∧ Spared P (step w op).1 ops

/-- The outline of curve `k`: its points, if all of its control points can be read. -/
noncomputable def outline (w : World) (k : ℕ) : Option (Set (Pt ℝ)) :=
  match w.curves[k]?, readCurve w k with
  | some c, .ok vs => some (Morph.trace (segs c.closed vs))
  | _, _ => none

end X7.LK
