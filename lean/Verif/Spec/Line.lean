import Verif.Model.Line

namespace X7.Line

/-- The point of the line at parameter `t` (independent of the code's operators). -/
def at' {K : Type*} [Field K] (l : Line K) (t : K) : Pt K :=
  ⟨l.origin.x + t * l.direction.x, l.origin.y + t * l.direction.y⟩

/-- Points of the infinite line. -/
def OnLine {K : Type*} [Field K] (l : Line K) (p : Pt K) : Prop := ∃ t, p = l.at' t

/-- Euclidean distance of two points of the real plane. -/
noncomputable def dist (p q : Pt ℝ) : ℝ := Real.sqrt ((p.x - q.x) ^ 2 + (p.y - q.y) ^ 2)

end X7.Line
