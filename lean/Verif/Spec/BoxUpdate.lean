import Verif.Model.BoxUpdate
import Verif.Spec.Region

/-!
What resizing means: the stretch of the plane that takes one box to another.
-/

noncomputable section

namespace X7

/-- The elements that `bbox_int_update` can resize: rectangles, rounded rectangles and ellipses. -/
def Elem.Resizable : Elem → Prop
  | .rect _ _ _ => True
  | .rrect _ _ _ _ => True
  | .ellipse _ _ _ => True
  | _ => False

/-- The same element but for its two points: the same class, common attributes and radius. -/
def Elem.SameButPoints : Elem → Elem → Prop
  | .rect h _ _, .rect h' _ _ => h = h'
  | .rrect h _ _ r, .rrect h' _ _ r' => h = h' ∧ r = r'
  | .ellipse h _ _, .ellipse h' _ _ => h = h'
  | _, _ => False

/-- `f` stretches along the axes, and takes the corners of the first box to those of the second. -/
def IsStretch (f : Pt ℝ → Pt ℝ) (b b' : BBox ℝ) : Prop :=
  (∃ sx sy tx ty : ℝ, ∀ p : Pt ℝ, f p = ⟨sx * p.x + tx, sy * p.y + ty⟩) ∧
    ∃ xl yl xh yh xl' yl' xh' yh', b = .box xl yl xh yh ∧ b' = .box xl' yl' xh' yh' ∧
      f ⟨xl, yl⟩ = ⟨xl', yl'⟩ ∧ f ⟨xh, yh⟩ = ⟨xh', yh'⟩

end X7
