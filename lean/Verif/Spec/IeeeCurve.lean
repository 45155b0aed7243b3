import Verif.Model.IeeeCurve
import Verif.Spec.Ieee
import Verif.Spec.Bezier

/-! What C105 says about curves and animated points of floats of finite range. -/

noncomputable section

namespace X7.Fmt
open NB
variable (F : Fmt)

/-- The largest relative error of one operation whose result is neither too small nor too large. -/
def u : ℝ := 2 ^ (-(F.p : ℤ))

/-- The smallest positive float. -/
def eta : ℝ := 2 ^ F.emin

/-- One is a float. -/
def HasOne : Prop := F.emin ≤ 0 ∧ 0 ≤ F.emax

/-- A vector and a control point of finite numbers. -/
def finV (v : Vec ℝ) : Vec N := ⟨fin v.x, fin v.y⟩
def finCP (cp : CP ℝ) : CP N := ⟨finPt cp.c, finV cp.dl, finV cp.dr, cp.kind⟩

/-- All coordinates are floats. -/
def FlCP (cp : CP ℝ) : Prop := F.FlPt cp.c ∧ (F.IsFl cp.dl.x ∧ F.IsFl cp.dl.y) ∧ F.IsFl cp.dr.x ∧ F.IsFl cp.dr.y

/-- A float: neither an infinity nor NaN. -/
def Finite (x : N) : Prop := ∃ r : ℝ, x = fin r

/-- The largest number that can come out of summing up a segment whose control points are computed with at most `n` roundings and
stay below `V`: nine roundings more, and a few times the smallest float for results that are too small. -/
def curveTop (n : ℕ) (V : ℝ) : ℝ := (1 + F.u) ^ (n + 9) * ((1 + 11 * F.eta) * V + 4 * F.eta)

/-- The sizes of the terms of a transformed coordinate, for points of coordinates below `Bx` and `By`; with the effect of numbers that
are too small. -/
def rowTop (a b c Bx By : ℝ) : ℝ := |a| * (Bx + F.eta) + |b| * (By + F.eta) + |c| + 5 * F.eta

/-- The coordinate of a point of a segment, as the code computes it, as an expression. -/
def bezEx (a b c d t : ℝ) : Ex :=
  let t2 := Ex.mul (.val t) (.val t)
  let t3 := Ex.mul (.val t) t2
  let s := Ex.sub (.val 1) (.val t)
  let s2 := Ex.mul s s
  let s3 := Ex.mul s s2
  let s2t := Ex.mul s2 (.val t)
  let st2 := Ex.mul s t2
  .add (.add (.add (.mul s3 (.val a)) (.mul (.mul (.val 3) s2t) (.val b))) (.mul (.mul (.val 3) st2) (.val c))) (.mul t3 (.val d))

end X7.Fmt
