import Verif.Spec.FillMove

/-!
Lines that meet the sides of a polygon.
-/

noncomputable section

namespace X7.Elem

/-- `p` is on the line from `a` to `b`, ends included. -/
def OnSeg (a b p : Pt ℝ) : Prop := ∃ v, 0 ≤ v ∧ v ≤ 1 ∧ p = ⟨a.x + v * (b.x - a.x), a.y + v * (b.y - a.y)⟩

/-- The lines from `p` to `q` and from `a` to `b` have a point in common. -/
def SegMeet (p q a b : Pt ℝ) : Prop := ∃ x, OnSeg p q x ∧ OnSeg a b x

open Classical in
/-- How many sides of the polygon the line from `p` to `q` meets. -/
def sidesMet (pts : List (Pt ℝ)) (p q : Pt ℝ) : ℕ := (pts.zip (pts.rotate 1)).countP fun e => decide (SegMeet p q e.1 e.2)

/-- `x` is on the ray from `p` in the direction `(u, v)`. -/
def OnRay (p : Pt ℝ) (u v : ℝ) (x : Pt ℝ) : Prop := ∃ t, 0 ≤ t ∧ x = ⟨p.x + t * u, p.y + t * v⟩

open Classical in
/-- How many sides of the polygon the ray meets. -/
def sidesHit (pts : List (Pt ℝ)) (p : Pt ℝ) (u v : ℝ) : ℕ := (pts.zip (pts.rotate 1)).countP fun e => decide (∃ x, OnRay p u v x ∧ OnSeg e.1 e.2 x)

end X7.Elem
