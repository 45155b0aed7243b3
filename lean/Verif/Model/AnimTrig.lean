import Verif.Model.Anim

/-! Model of the remaining time functions of x7/geom/anim.py. -/

noncomputable section

namespace X7.Anim

/-- anim.py:134-137 `Animation.sin(frequency, offset, scale, shift)`. -/
def animSin (frequency offset scale shift : ℝ) : TFunc := periodic Real.sin frequency offset scale shift

/-- anim.py:139-142 `Animation.cos(frequency, offset, scale, shift)`. -/
def animCos (frequency offset scale shift : ℝ) : TFunc := periodic Real.cos frequency offset scale shift

/-- anim.py:64-71 `Animation.identity()`. -/
def identity : TFunc := fun t => .ok t

end X7.Anim
