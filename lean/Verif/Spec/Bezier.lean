import Verif.Model.Bezier
import Verif.Spec.Region

namespace X7
variable {K : Type*} [Field K]

/-- The cubic Bezier curve in Bernstein form. -/
def bern (a b c d : Pt K) (t : K) : Pt K :=
  ⟨(1 - t) ^ 3 * a.x + 3 * (1 - t) ^ 2 * t * b.x + 3 * (1 - t) * t ^ 2 * c.x + t ^ 3 * d.x,
   (1 - t) ^ 3 * a.y + 3 * (1 - t) ^ 2 * t * b.y + 3 * (1 - t) * t ^ 2 * c.y + t ^ 3 * d.y⟩

/-- The control polygon of the segment from one control point to the next. -/
structure Poly4 (K : Type*) where
  a : Pt K
  b : Pt K
  c : Pt K
  d : Pt K

/-- The curve of a control polygon. -/
def Poly4.at' (s : Poly4 K) (t : K) : Pt K := bern s.a s.b s.c s.d t

/-- The same polygon backwards. -/
def Poly4.rev (s : Poly4 K) : Poly4 K := ⟨s.d, s.c, s.b, s.a⟩

/-- The segment from `p` to `q`: it starts at the centre of `p` along its right handle and arrives at the centre of `q`
along its left handle. -/
def seg (p q : CP K) : Poly4 K :=
  ⟨p.c, ⟨p.c.x + p.dr.x, p.c.y + p.dr.y⟩, ⟨q.c.x + q.dl.x, q.c.y + q.dl.y⟩, q.c⟩

/-- The segments of an open curve. -/
def openSegs (cps : List (CP K)) : List (Poly4 K) := List.zipWith seg cps cps.tail

/-- The segments of a closed curve: also from the last to the first control point. -/
def closedSegs (cps : List (CP K)) : List (Poly4 K) := List.zipWith seg cps (cps.rotate 1)

/-- Segments of a curve. -/
def segs (closed : Bool) (cps : List (CP K)) : List (Poly4 K) := if closed then closedSegs cps else openSegs cps

/-- Signed distance of `q` from the directed line through `p` with direction `t`: positive to the left. -/
noncomputable def signedDist (p : Pt ℝ) (t : Vec ℝ) (q : Pt ℝ) : ℝ :=
  (t.x * (q.y - p.y) - t.y * (q.x - p.x)) / Real.sqrt (t.x ^ 2 + t.y ^ 2)

/-- The pair number `i` of a flat coordinate list. -/
def pairAt (xs : List K) (i : ℕ) : Option (Pt K) :=
  match xs[2 * i]?, xs[2 * i + 1]? with
  | some x, some y => some ⟨x, y⟩
  | _, _ => none

/-- The control polygon after transforming each of its points. -/
def Poly4.map (f : Pt K → Pt K) (s : Poly4 K) : Poly4 K := ⟨f s.a, f s.b, f s.c, f s.d⟩

/-- A list of segments as a polyline: every segment at `0, 1/n, ..., 1`; where two segments meet the point is listed once. -/
def pathOf (steps : ℕ) : List (Poly4 K) → List (Pt K)
  | [] => []
  | s :: rest => (List.range (steps + 1)).map (fun (i : ℕ) => s.at' ((i : K) / steps)) ++
      rest.flatMap fun s => ((List.range (steps + 1)).map (fun (i : ℕ) => s.at' ((i : K) / steps))).tail

end X7
