import Verif.Props.IeeeCurve2

/-!
C105, continued: when the box of a curve of floats does not exist.
-/

noncomputable section

namespace X7.Fmt
open NB
variable {F : Fmt}

/-- C105: asking for the box of a curve fails only if it has no control points, whatever the floats (also NaN and the infinities), and then with an `IndexError`. -/
theorem C105_bbox_error (cps : List (CP N)) (e : PyErr) : F.curveBBox cps = .error e ↔ cps = [] ∧ e = .index := by
  cases cps with
  | nil => simp [curveBBox, eq_comm]
  | cons cp cps => simp [curveBBox]

/-- Three times the same control point, be it NaN, has a box; no control points have none. -/
example (cp : CP N) : (∀ e, F.curveBBox [cp, cp, cp] ≠ .error e) ∧ F.curveBBox [] = .error .index :=
  ⟨fun e h => by simpa using ((C105_bbox_error _ e).1 h).1, (C105_bbox_error [] _).2 ⟨rfl, rfl⟩⟩

end X7.Fmt
