import Verif.Model.Rnd
import Verif.Model.Morph

/-!
Rounded arithmetic in x7/geom/anim.py and anim_simple.py: blending of curves, time functions, animations and the times of
frames. Simplification: only results of arithmetic are modelled here; which objects are changed is modelled in Model/Anim.lean
and Model/Morph.lean.
-/

noncomputable section

namespace X7.Fl
variable (R : Rnd)

/-- anim.py:337-339, 406-408 `o + t * (tgt - o)` for vectors (geom.py:179-195, 205-206), see `Morph.mixVec`. -/
def mixVec (t : ℝ) (o g : Vec ℝ) : Vec ℝ :=
  ⟨R.fl (o.x + R.fl (R.fl (g.x - o.x) * t)), R.fl (o.y + R.fl (R.fl (g.y - o.y) * t))⟩

/-- anim.py:337-339, 406-408 one control point, see `Morph.mixCP`. -/
def mixCP (t : ℝ) (m o g : CP ℝ) : CP ℝ := ⟨lerp R t o.c g.c, mixVec R t o.dl g.dl, mixVec R t o.dr g.dr, m.kind⟩

/-- anim.py:336-339, 405-408 the loop over `zip(morph, orig, target)`, see `Morph.mixAll`. -/
def mixAll (t : ℝ) : (m o g : List (CP ℝ)) → List (CP ℝ)
  | m :: ms, o :: os, g :: gs => mixCP R t m o g :: mixAll t ms os gs
  | ms, _, _ => ms

/-- anim.py:318-339 `Morph.update(t)`, see `Morph.M.update`. -/
def morphUpdate (m : Morph.M) (t : Anim.TVal) : Except PyErr Morph.M :=
  match m.tfunc t with
  | .error e => .error e
  | .ok .none => .ok { m with morph := Morph.hide m.morph }
  | .ok (.num t) => .ok { m with morph := mixAll R t m.morph m.orig m.target }
  | .ok (.pair _ _) => if m.morph = [] then .ok m else .error .type

/-- anim.py:387-397 the curves to mix and the fraction, see `Morph.pick`. -/
def pick (steps : List ℝ) (curves : List (List (CP ℝ))) (t : ℝ) : Except PyErr (List (CP ℝ) × List (CP ℝ) × ℝ) :=
  let idx := Anim.bisectRight steps t
  if idx = 0 then .ok (curves.getD 0 [], curves.getD 0 [], t)
  else if curves.length ≤ idx then .ok (curves.getD (curves.length - 1) [], curves.getD (curves.length - 1) [], t)
  else
    match pyDiv (R.fl (t - steps.getD (idx - 1) 0)) (R.fl (steps.getD idx 0 - steps.getD (idx - 1) 0)) with
    | .error e => .error e
    | .ok t => .ok (curves.getD (idx - 1) [], curves.getD idx [], R.fl t)

/-- anim.py:375-408 `MorphMultiStep.update(t)`, see `Morph.MM.update`. -/
def multiUpdate (m : Morph.MM) (t : Anim.TVal) : Except PyErr Morph.MM :=
  match m.tfunc t with
  | .error e => .error e
  | .ok .none => .ok { m with morph := Morph.hide m.morph }
  | .ok (.pair _ _) => .error .type
  | .ok (.num t) =>
    match pick R m.steps m.curves t with
    | .error e => .error e
    | .ok (low, high, t) => .ok { m with morph := mixAll R t m.morph low high }

/-- anim.py:113-118 `np.interp(t, time, value)`, see `Anim.npInterp`; library assumption: `slope*(x - xp[j]) + fp[j]`, each
operation rounded, with `slope = (fp[j+1] - fp[j]) / (xp[j+1] - xp[j])`. -/
def npInterp (xp fp : List ℝ) (x : ℝ) : ℝ :=
  let j := Anim.bisectRight xp x
  if j = 0 then fp.getD 0 0
  else if j = xp.length then fp.getD (j - 1) 0
  else
    let slope := R.fl (R.fl (fp.getD j 0 - fp.getD (j - 1) 0) / R.fl (xp.getD j 0 - xp.getD (j - 1) 0))
    R.fl (R.fl (slope * R.fl (x - xp.getD (j - 1) 0)) + fp.getD (j - 1) 0)

/-- anim.py:250 `(1.0 - cos(...)) * 0.5`, for a computed cosine `c`. -/
def sinTime (c : ℝ) : ℝ := R.fl (R.fl (1 - c) * (1 / 2))

/-- anim.py:249-254 the new coordinates of the point after `AnimationSinusoidal.update`, for a computed cosine `c`. -/
def animSinusoidal (orig target : Pt ℝ) (c : ℝ) : Pt ℝ := animLinear R orig target (sinTime R c) (sinTime R c)

/-- anim.py:268-271 the new coordinates of the point after `AnimationCircular.update`, for a computed sine `s` and cosine `c`. -/
def animCircular (orig : Pt ℝ) (radius s c : ℝ) : Pt ℝ :=
  ⟨R.fl (orig.x + R.fl (radius * s)), R.fl (orig.y + R.fl (radius * c))⟩

/-- anim.py:464 `t / steps`: the division of two ints is rounded once. -/
def buildTime (steps i : ℕ) : ℝ := R.fl ((i : ℝ) / steps)

/-- anim_simple.py:83-86 `step_t` in the given step: `t_low + step * step_size` with
`step_size = (t_high - t_low) / steps`; ints are converted to floats first. -/
def frameTime (t_low t_high : ℝ) (steps step : ℕ) : Except PyErr ℝ :=
  match pyDiv (R.fl (t_high - t_low)) (R.fl steps) with
  | .error e => .error e
  | .ok step_size => .ok (R.fl (t_low + R.fl (R.fl step * R.fl step_size)))

end X7.Fl
