import Verif.Model.SimpleAnim
import Verif.Spec.Region

/-!
What drawing calls mean: shapes in model coordinates, seen through the transform of the context.
-/

noncomputable section

namespace X7.SA
variable {C : Type}

/-- A shape moved point by point. -/
def Shape.map (f : Pt ℝ → Pt ℝ) : Shape C → Shape C
  | .line p q c w => .line (f p) (f q) c w
  | .polygon pts fill o => .polygon (pts.map f) fill o

/-- The points of a shape. -/
def Shape.pts : Shape C → List (Pt ℝ)
  | .line p q _ _ => [p, q]
  | .polygon pts _ _ => pts

/-- The sides of the square with corners (±r, ±r). -/
def squareShapes (r : ℝ) (c : C) : List (Shape C) :=
  [.line ⟨-r, r⟩ ⟨r, r⟩ c 1, .line ⟨r, -r⟩ ⟨r, r⟩ c 1, .line ⟨r, -r⟩ ⟨-r, -r⟩ c 1, .line ⟨-r, -r⟩ ⟨-r, r⟩ c 1]

/-- What a call draws, in model coordinates; a grid is two axes and three squares. -/
def Cmd.shapes (gc : GridColors C) : Cmd C → List (Shape C)
  | .line x1 y1 x2 y2 c w => [.line ⟨x1, y1⟩ ⟨x2, y2⟩ c w]
  | .polygon pts f o => [.polygon pts f o]
  | .grid _ _ => [.line ⟨1000, 0⟩ ⟨-1000, 0⟩ gc.red 1, .line ⟨0, 1000⟩ ⟨0, -1000⟩ gc.red 1] ++ squareShapes 100 gc.black ++
      squareShapes 50 gc.green ++ squareShapes 10 gc.blue
  | _ => []

/-- Calls that draw something and cannot fail. -/
def Cmd.Draws : Cmd C → Prop
  | .line _ _ _ _ _ _ => True
  | .polygon pts _ _ => pts ≠ []
  | .grid _ _ => True
  | _ => False

/-- The image of a point lies on an image of size `w` by `h`. -/
def OnImage (w h : ℝ) (p : Pt ℝ) : Prop := (0 ≤ p.x ∧ p.x ≤ w) ∧ (0 ≤ p.y ∧ p.y ≤ h)

end X7.SA
