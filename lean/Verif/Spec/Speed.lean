import Verif.Spec.Anim
import Verif.Spec.Utils
import Verif.Spec.Bezier

/-!
How far things move between two times.
-/

noncomputable section

namespace X7.Anim
open X7.Utils (distPt)

/-- The times for x and for y a time value stands for. -/
inductive TVal.Times : TVal → ℝ → ℝ → Prop
  | num (s : ℝ) : TVal.Times (.num s) s s
  | pair (x y : ℝ) : TVal.Times (.pair x y) x y

/-- The values of a time function at two times differ by at most `L` times the difference of the times. -/
def Slow (L : ℝ) (f : TFunc) : Prop := ∀ t t' v w sx sy sx' sy', f (.num t) = .ok v → f (.num t') = .ok w → v.Times sx sy → w.Times sx' sy' →
  |sx - sx'| ≤ L * |t - t'| ∧ |sy - sy'| ≤ L * |t - t'|

/-- The times of the knots go up, and from knot to knot the value changes by at most `L` per unit of time. -/
def Gentle (L : ℝ) (curve : List (ℝ × ℝ)) : Prop :=
  ∀ (i : ℕ) (a b : ℝ × ℝ), curve[i]? = some a → curve[i + 1]? = some b → a.1 < b.1 ∧ |b.2 - a.2| ≤ L * (b.1 - a.1)

/-- `Speed h a K`: with the target where it is in `h`, animation `a` moves its point with speed at most `K`. -/
inductive Speed (h : PH.Heap ℝ) : Anim → ℝ → Prop
  | linear {pt o g q} : PH.Reads h g q → Speed h (.linear pt o g) (distPt o q)
  | func {pt o g q L} {f : TFunc} : PH.Reads h g q → Slow L f → Speed h (.linearFunc pt o g f) (L * distPt o q)
  | sinusoidal {pt o g q f d} : PH.Reads h g q → Speed h (.sinusoidal pt o g f d) (Real.pi * |f| * distPt o q)
  | circular {pt o r f d} : Speed h (.circular pt o r f d) (2 * Real.pi * |f| * |r|)

/-- The centres and the ends of the handles of two control points are at most `K` apart. -/
def Apart (K : ℝ) (a b : CP ℝ) : Prop :=
  distPt a.c b.c ≤ K ∧ distPt ⟨a.c.x + a.dl.x, a.c.y + a.dl.y⟩ ⟨b.c.x + b.dl.x, b.c.y + b.dl.y⟩ ≤ K ∧
    distPt ⟨a.c.x + a.dr.x, a.c.y + a.dr.y⟩ ⟨b.c.x + b.dr.x, b.c.y + b.dr.y⟩ ≤ K

end X7.Anim
