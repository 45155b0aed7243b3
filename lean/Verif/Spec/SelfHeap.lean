import Verif.Model.SelfHeap

/-! What a call of `bez_self_intersect` may do to control points that existed before. -/

namespace X7.Bzi

/-- `v` points the way `w` does and is at most as long. -/
def Shorter (v w : Vec ℝ) : Prop := ∃ u : ℝ, 0 ≤ u ∧ u ≤ 1 ∧ v = ⟨u * w.x, u * w.y⟩

end X7.Bzi
