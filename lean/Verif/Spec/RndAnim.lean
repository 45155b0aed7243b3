import Verif.Model.Rnd
import Verif.Spec.Morph

/-! What is said about rounded animations. -/

namespace X7

/-- The six numbers of a control point are floats. -/
def Rnd.RepCP (R : Rnd) (cp : CP ℝ) : Prop := ∀ k, R.Rep (Morph.coord k cp)

/-- The six numbers of a control point are at most `B`. -/
def CP.AtMost (B : ℝ) (cp : CP ℝ) : Prop := ∀ k, |Morph.coord k cp| ≤ B

/-- The same centres and handles; kinds may differ. -/
def SamePlaces (a b : List (CP ℝ)) : Prop := (a.map fun cp => (cp.c, cp.dl, cp.dr)) = b.map fun cp => (cp.c, cp.dl, cp.dr)

end X7
