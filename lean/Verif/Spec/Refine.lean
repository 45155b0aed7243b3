import Verif.Spec.Approx

/-!
The control polygon of a curve, and programs that split a curve again and again.
-/

noncomputable section

namespace X7.Refine
open X7.Approx (joined)

/-- The control polygon of each segment of a curve: straight lines from its start to the end of the right handle there, on to the end of the
left handle of the next control point, and on to that control point. -/
def polygonSet (closed : Bool) (cps : List (CP ℝ)) : Set (Pt ℝ) :=
  {q | ∃ s ∈ segs closed cps, q ∈ joined [s.a, s.b, s.c, s.d]}

/-- The points at most `e` to the left, right, above or below a box. -/
def around (e : ℝ) (b : BBox ℝ) : Set (Pt ℝ) := {q | ∃ q0 ∈ b.Region, |q.x - q0.x| ≤ e ∧ |q.y - q0.y| ≤ e}

/-- `p'`, `q'` are the ends of one of the pieces which a program gets from the segment with ends `p`, `q` by calling
`bez_split(.., .., t=0.5)` `n` times, each time with the ends of a piece. -/
inductive Piece (p q : CP ℝ) : ℕ → CP ℝ → CP ℝ → Prop
  | whole : Piece p q 0 p q
  | first {n p' q'} : Piece p q n p' q' → Piece p q (n + 1) (bezSplit p' q' (1 / 2)).1 (bezSplit p' q' (1 / 2)).2.1
  | second {n p' q'} : Piece p q n p' q' → Piece p q (n + 1) (bezSplit p' q' (1 / 2)).2.1 (bezSplit p' q' (1 / 2)).2.2

/-- `curve.add_one()`, called `n` times. -/
def addMany : ℕ → List (CP ℝ) → Except PyErr (List (CP ℝ))
  | 0, cps => .ok cps
  | n + 1, cps => addOne cps >>= addMany n

end X7.Refine
