import Verif.Model.IeeeLine
import Verif.Spec.Ieee
import Verif.Model.RndLine

/-! What C104 says about lines and fields with floats of finite range. -/

noncomputable section

namespace X7.Fmt
open NB
variable (F : Fmt)

/-- A line of finite numbers. -/
def finLine (l : Line ℝ) : Line N := ⟨finPt l.origin, ⟨fin l.direction.x, fin l.direction.y⟩⟩

/-- All coordinates are floats. -/
def FlLine (l : Line ℝ) : Prop := F.FlPt l.origin ∧ F.IsFl l.direction.x ∧ F.IsFl l.direction.y

/-- Library assumption: what `math.hypot` does with infinities, NaN and numbers. -/
structure HypLaw (hyp : N → N → N) : Prop where
  inf : ∀ a b : N, a = .num ⊤ ∨ a = .num ⊥ ∨ b = .num ⊤ ∨ b = .num ⊥ → hyp a b = .num ⊤
  nan : ∀ a : N, (∀ r, hyp .nan a = .num r → r = ⊤) ∧ (∀ r, hyp a .nan = .num r → r = ⊤)

/-- Library assumption: `math.hypot` of finite numbers is off by less than the distance of neighbouring floats of its size, and is zero
for zeros. -/
def HypClose (hyp : N → N → N) : Prop := ∀ x y : ℝ, √(x ^ 2 + y ^ 2) < F.maxf → ∃ r : ℝ, hyp (fin x) (fin y) = fin r ∧ F.IsFl r ∧
  |r - √(x ^ 2 + y ^ 2)| < 2 ^ F.last (√(x ^ 2 + y ^ 2)) ∧ (x = 0 ∧ y = 0 → r = 0)

open scoped Classical in
/-- A correctly rounded hypot. -/
def hypRounded : N → N → N
  | .num a, .num b => if a = ⊤ ∨ a = ⊥ ∨ b = ⊤ ∨ b = ⊥ then .num ⊤ else F.toF (√(a.toReal ^ 2 + b.toReal ^ 2))
  | .num a, .nan => if a = ⊤ ∨ a = ⊥ then .num ⊤ else .nan
  | .nan, .num b => if b = ⊤ ∨ b = ⊥ then .num ⊤ else .nan
  | .nan, .nan => .nan

/-- The two hypots agree where the length is in range. -/
def SameHyp (hyp : N → N → N) (hyp' : ℝ → ℝ → ℝ) : Prop := ∀ x y : ℝ, F.InRange (√(x ^ 2 + y ^ 2)) → hyp (fin x) (fin y) = fin (hyp' x y)

/-- The results of the operations of `intersection`, each before it is rounded. -/
def lineResults (R : Rnd) (l o : Line ℝ) : List ℝ :=
  let d := l.direction
  let e := o.direction
  let w := Fl.sub R l.origin o.origin
  let num := Fl.dot R (Fl.normal d) w
  let den := Fl.dot R (Fl.normal d) e
  let t := R.fl (num / den)
  [d.x * e.y, d.y * e.x, R.fl (d.x * e.y) - R.fl (d.y * e.x), l.origin.x - o.origin.x, l.origin.y - o.origin.y,
    d.y * w.x, -d.x * w.y, R.fl (d.y * w.x) + R.fl (-d.x * w.y), num / den,
    e.x * t, e.y * t, o.origin.x + R.fl (e.x * t), o.origin.y + R.fl (e.y * t)]

/-- The results of the operations of `closest`, each before it is rounded; `hyp` is the computed hypot. -/
def closestResults (R : Rnd) (hyp : ℝ → ℝ → ℝ) (l : Line ℝ) (p : Pt ℝ) : List ℝ :=
  let d := l.direction
  let ux := R.fl (d.x / hyp d.x d.y)
  let uy := R.fl (d.y / hyp d.x d.y)
  let w := Fl.sub R p l.origin
  let t := R.fl (R.fl (w.x * ux) + R.fl (w.y * uy))
  [√(d.x ^ 2 + d.y ^ 2), d.x / hyp d.x d.y, d.y / hyp d.x d.y, p.x - l.origin.x, p.y - l.origin.y, w.x * ux, w.y * uy, R.fl (w.x * ux) + R.fl (w.y * uy),
    ux * t, uy * t, l.origin.x + R.fl (ux * t), l.origin.y + R.fl (uy * t)]

/-- The results of the operations of `segment_intersection`, each before it is rounded. -/
def segmentResults (R : Rnd) (l o : Line ℝ) : List ℝ :=
  let p := fun l o : Line ℝ => Fl.lineAt R o (R.fl (Fl.dot R (Fl.normal l.direction) (Fl.sub R l.origin o.origin) /
    Fl.dot R (Fl.normal l.direction) o.direction))
  [l.origin.x + l.direction.x, l.origin.y + l.direction.y, o.origin.x + o.direction.x, o.origin.y + o.direction.y] ++
    lineResults R l o ++ lineResults R o l ++ [(p o l).x - (p l o).x, (p o l).y - (p l o).y,
      √((Fl.sub R (p o l) (p l o)).x ^ 2 + (Fl.sub R (p o l) (p l o)).y ^ 2), 1 / 10 ^ 7]

/-- A format with room for squares and reciprocals, as binary64 is. -/
structure Roomy : Prop where
  p8 : 8 ≤ F.p
  emin16 : F.emin ≤ -16
  emax0 : 0 ≤ F.emax
  inv : -F.emin ≤ 2 * F.emax
  low : 2 * F.emin + F.p + F.emax ≤ -16

end X7.Fmt
