import Mathlib.Data.List.Rotate
import Verif.Model.SelfIntersect
import Verif.Spec.Bezier
import Verif.Spec.Morph

/-!
What `bez_self_intersect` should return, apart from the code.
-/

noncomputable section

namespace X7.Bzi

/-- `pieces` are the parts of the segment `S` cut at the parameters `ts`: piece `i` runs along `S` from the `i`-th cut to the next. -/
def Pieces (S : Poly4 ℝ) (ts : List ℝ) (pieces : List (Poly4 ℝ)) : Prop :=
  List.Forall₂ (fun (ab : ℝ × ℝ) P => ∀ u, P.at' u = S.at' (ab.1 + u * (ab.2 - ab.1))) ((0 :: ts).zip (ts ++ [1])) pieces

/-- The library has found the intersections exactly: each `(t, xy)` of a segment is the point `xy` of the segment at parameter `t`,
which is not the end of the segment. -/
def Exact (curves : List ((CP ℝ × CP ℝ) × List (ℝ × Pt ℝ))) : Prop :=
  ∀ c ∈ curves, ∀ p ∈ c.2, 0 ≤ p.1 ∧ p.1 < 1 ∧ (seg c.1.1 c.1.2).at' p.1 = p.2

/-- Different intersection points are at least 1e-11 apart. -/
def Apart (curves : List ((CP ℝ × CP ℝ) × List (ℝ × Pt ℝ))) : Prop :=
  ∀ c ∈ curves, ∀ p ∈ c.2, ∀ c' ∈ curves, ∀ p' ∈ c'.2, p.2 ≠ p'.2 → 1 / 10 ^ 11 ≤ Real.sqrt ((p.2.x - p'.2.x) ^ 2 + (p.2.y - p'.2.y) ^ 2)

/-- The intersection points in the order in which the curve passes them. -/
def passed (curves : List ((CP ℝ × CP ℝ) × List (ℝ × Pt ℝ))) : List (Pt ℝ) :=
  curves.flatMap fun c => (sortIxs c.2).map Prod.snd

/-- The `arcs` of a closed curve whose segments, after cutting, are `pieces` and which passes the points `w` in this order: arc number `i`
runs from `w[i]` to the next one; together, starting at `w[0]`, they are the whole curve. -/
structure Arcs (pieces : List (Poly4 ℝ)) (w : List (Pt ℝ)) (arcs : List (List (Poly4 ℝ))) : Prop where
  whole : arcs.flatten ~r pieces
  len : arcs.length = w.length
  start : ∀ i < w.length, ∃ S, (arcs[i]?).bind List.head? = some S ∧ w[i]? = some S.a
  stop : ∀ i < w.length, ∃ S, (arcs[i]?).bind List.getLast? = some S ∧ w[(i + 1) % w.length]? = some S.d

/-- Each arc is used by exactly one of the closed curves `out`; each of them is a sequence of arcs, up to the point where it starts, and
passes no point of `w` twice. -/
def Loops (w : List (Pt ℝ)) (arcs : List (List (Poly4 ℝ))) (out : List (List (CP ℝ))) : Prop :=
  ∃ loops : List (List ℕ), loops.flatten.Perm (List.range arcs.length) ∧
    List.Forall₂ (fun l r => l ≠ [] ∧ (l.map fun i => w[i]?).Nodup ∧ closedSegs r ~r l.flatMap fun i => (arcs[i]?).getD []) loops out

end X7.Bzi
