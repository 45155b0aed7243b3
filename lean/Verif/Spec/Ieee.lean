import Verif.Model.Ieee
import Verif.Spec.NanBox
import Verif.Spec.Rnd

/-! What C98 says about floats of finite range. -/

noncomputable section

namespace X7.Fmt
open NB
variable (F : Fmt)

/-- The finite floats: at most `p` digits, the last one not below `emin` and not above `emax`. -/
def IsFl (x : ℝ) : Prop := ∃ m e : ℤ, |m| < 2 ^ F.p ∧ F.emin ≤ e ∧ e ≤ F.emax ∧ x = m * 2 ^ e

/-- Results beyond this size overflow. -/
def limit : ℝ := (2 ^ F.p - 1 / 2) * 2 ^ F.emax

/-- The smallest float that has all `p` digits. -/
def tiny : ℝ := 2 ^ (F.emin + F.p - 1)

/-- A point of finite numbers. -/
def finPt (p : Pt ℝ) : Pt (Num EReal) := ⟨fin p.x, fin p.y⟩

/-- A box of finite numbers. -/
def finBox : BBox ℝ → BBox (Num EReal)
  | .none => .none
  | .box xl yl xh yh => .box (fin xl) (fin yl) (fin xh) (fin yh)

/-- All coordinates are floats. -/
def FlPt (p : Pt ℝ) : Prop := F.IsFl p.x ∧ F.IsFl p.y
def FlBox : BBox ℝ → Prop
  | .none => True
  | .box xl yl xh yh => (F.IsFl xl ∧ F.IsFl yl) ∧ F.IsFl xh ∧ F.IsFl yh

/-- The point is in the closed box, as Python compares floats. -/
def Inside (b : BBox (Num EReal)) (p : Pt (Num EReal)) : Prop :=
  match b with
  | .none => False
  | .box xl yl xh yh => (le xl p.x ∧ le p.x xh) ∧ le yl p.y ∧ le p.y yh

/-- An arithmetic expression of the kind the code evaluates. -/
inductive Ex
  | val (x : ℝ)
  | add (a b : Ex)
  | sub (a b : Ex)
  | mul (a b : Ex)
  | half (a : Ex)

/-- The expression evaluated with floats of finite range. -/
def Ex.ieee : Ex → Num EReal
  | .val x => fin x
  | .add a b => F.add a.ieee b.ieee
  | .sub a b => F.sub a.ieee b.ieee
  | .mul a b => F.mul a.ieee b.ieee
  | .half a => F.half a.ieee

/-- The expression evaluated with rounding but unlimited range, as in C85 to C89. -/
def Ex.wide (R : Rnd) : Ex → ℝ
  | .val x => x
  | .add a b => R.fl (a.wide R + b.wide R)
  | .sub a b => R.fl (a.wide R - b.wide R)
  | .mul a b => R.fl (a.wide R * b.wide R)
  | .half a => R.fl (a.wide R / 2)

/-- The results of the operations of the expression, each before it is rounded. -/
def Ex.results (R : Rnd) : Ex → List ℝ
  | .val _ => []
  | .add a b => (a.wide R + b.wide R) :: (a.results R ++ b.results R)
  | .sub a b => (a.wide R - b.wide R) :: (a.results R ++ b.results R)
  | .mul a b => (a.wide R * b.wide R) :: (a.results R ++ b.results R)
  | .half a => (a.wide R / 2) :: a.results R

/-- Neither too small nor too large. -/
def InRange (x : ℝ) : Prop := x = 0 ∨ F.tiny ≤ |x| ∧ |x| < F.limit

end X7.Fmt
