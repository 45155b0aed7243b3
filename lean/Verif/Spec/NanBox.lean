import Verif.Model.NanBox

/-! What C97 says about boxes with NaN coordinates. -/

namespace X7.NB
variable {α : Type*} [LinearOrder α]

/-- A box without NaN, seen as a box that could have one. -/
def lift : BBox α → BBox (Num α)
  | .none => .none
  | .box xl yl xh yh => .box (.num xl) (.num yl) (.num xh) (.num yh)

/-- A point without NaN. -/
def liftPt (p : Pt α) : Pt (Num α) := ⟨.num p.x, .num p.y⟩

/-- The two ends of the extent of a box along one axis: two numbers in order, or NaN twice. -/
def Ends (l h : Num α) : Prop := (l = .nan ∧ h = .nan) ∨ ∃ a b, l = .num a ∧ h = .num b ∧ a ≤ b

/-- Both extents are as `Ends` says. -/
def Paired : BBox (Num α) → Prop
  | .none => True
  | .box xl yl xh yh => Ends xl xh ∧ Ends yl yh

/-- The boxes a program can have that does not assign to items: made by the constructor, from any coordinates, and by any number of
calls of the methods that make or change boxes. -/
inductive Made : BBox (Num α) → Prop
  | empty : Made .none
  | new (a b c d : Num α) : Made (mk' a b c d)
  | copied {b} : Made b → Made (copy b)
  | sorted {b b'} : Made b → sort b = .ok b' → Made b'
  | sum {a b} : Made a → Made b → Made (add a b)
  | grown {b} (p : Pt (Num α)) : Made b → Made (grow b p)
  | common {a b} : Made a → Made b → Made (inter a b)
  | image {b b'} (f : Pt (Num α) → Pt (Num α)) : Made b → transformed b f = .ok b' → Made b'

/-- The extent of the first box along one axis after a method joined it with the second: a NaN extent of the first stays, one of the
second is ignored, else it is from the smaller low end to the larger high end. -/
def Joined (l h l' h' : Num α) (L H : Num α) : Prop :=
  (l = .nan ∧ L = .nan ∧ H = .nan) ∨
  (l ≠ .nan ∧ l' = .nan ∧ L = l ∧ H = h) ∨
  ∃ a b a' b', l = .num a ∧ h = .num b ∧ l' = .num a' ∧ h' = .num b' ∧ L = .num (min a a') ∧ H = .num (max b b')

/-- The same for the common part of two boxes. -/
def Met (l h l' h' : Num α) (L H : Num α) : Prop :=
  (l = .nan ∧ L = .nan ∧ H = .nan) ∨
  (l ≠ .nan ∧ l' = .nan ∧ L = l ∧ H = h) ∨
  ∃ a b a' b', l = .num a ∧ h = .num b ∧ l' = .num a' ∧ h' = .num b' ∧ L = .num (max a a') ∧ H = .num (min b b')

/-- Two extents are apart: both are numbers and one ends before the other begins. -/
def Apart (l h l' h' : Num α) : Prop :=
  ∃ a b a' b', l = .num a ∧ h = .num b ∧ l' = .num a' ∧ h' = .num b' ∧ (b' < a ∨ b < a')

/-- Two extents are apart or meet in an end only. -/
def Beside (l h l' h' : Num α) : Prop :=
  ∃ a b a' b', l = .num a ∧ h = .num b ∧ l' = .num a' ∧ h' = .num b' ∧ (b' ≤ a ∨ b ≤ a')

/-- Some coordinate is NaN. -/
def HasNan : BBox (Num α) → Prop
  | .none => False
  | .box xl yl xh yh => xl = .nan ∨ yl = .nan ∨ xh = .nan ∨ yh = .nan

instance [DecidableEq α] (b : BBox (Num α)) : Decidable (HasNan b) := by
  cases b <;> unfold HasNan <;> infer_instance

/-- The extent `l` to `h` spans the values `vs`: from the least to the greatest number among them, NaNs left out, if the first one is
a number; NaN if the first one is NaN. -/
def Spans (vs : List (Num α)) (l h : Num α) : Prop :=
  (vs.head? = some .nan ∧ l = .nan ∧ h = .nan) ∨
  (vs.head? ≠ some .nan ∧ ∃ a b, l = .num a ∧ h = .num b ∧ IsLeast {v | .num v ∈ vs} a ∧ IsGreatest {v | .num v ∈ vs} b)

end X7.NB
