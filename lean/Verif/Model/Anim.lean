import Mathlib.Analysis.SpecialFunctions.Trigonometric.Basic
import Verif.Model.PointHeap

/-!
Model of x7/geom/anim.py: time functions (64-167), animations of points (45-62, 209-285), `Builder.build_one`, `build_all`,
`max_bbox` (452-472) and of x7/geom/anim_simple.py `SimpleAnimation` (35-90). Drawing itself is a parameter.
-/

noncomputable section

namespace X7.Anim

/-- A time value: a number, a pair `(tx, ty)`, or `None`. -/
inductive TVal
  | num (t : ℝ)
  | pair (x y : ℝ)
  | none

/-- A time function. -/
abbrev TFunc := TVal → Except PyErr TVal

/-- CPython `bisect.bisect_right` (library, transcribed): the loop with bounds `lo`, `hi`. -/
def bisectGo (a : List ℝ) (x : ℝ) (lo hi : ℕ) : ℕ :=
  if lo < hi then
    let mid := (lo + hi) / 2
    if x < a.getD mid 0 then bisectGo a x lo mid else bisectGo a x (mid + 1) hi
  else lo
termination_by hi - lo

/-- `bisect.bisect_right(a, x)`. -/
def bisectRight (a : List ℝ) (x : ℝ) : ℕ := bisectGo a x 0 a.length

/-- Library assumption `np.interp(x, xp, fp)`: clamped outside, linear on the interval found by bisection. -/
def npInterp (xp fp : List ℝ) (x : ℝ) : ℝ :=
  let j := bisectRight xp x
  if j = 0 then fp.getD 0 0
  else if j = xp.length then fp.getD (j - 1) 0
  else (fp.getD j 0 - fp.getD (j - 1) 0) / (xp.getD j 0 - xp.getD (j - 1) 0) * (x - xp.getD (j - 1) 0) + fp.getD (j - 1) 0

/-- anim.py:106-120 `interpolate(curve)`: no knots is a `ValueError`; `None` is a `TypeError` in `np.interp`. -/
def interpolate (curve : List (ℝ × ℝ)) : Except PyErr TFunc :=
  if curve = [] then .error .value
  else
    let time := curve.map Prod.fst
    let value := curve.map Prod.snd
    .ok fun t => match t with
      | .pair x y => .ok (.pair (npInterp time value x) (npInterp time value y))
      | .num t => .ok (.num (npInterp time value t))
      | .none => .error .type

/-- anim.py:94-98 `ramp_up(start, end)`. -/
def rampUp (start stop : ℝ) : Except PyErr TFunc := interpolate [(0, 0), (start, 0), (stop, 1), (1, 1)]

/-- anim.py:100-104 `ramp_down(start, end)`. -/
def rampDown (start stop : ℝ) : Except PyErr TFunc := interpolate [(0, 1), (start, 1), (stop, 0), (1, 0)]

/-- `math.radians`. -/
def radians (d : ℝ) : ℝ := d * Real.pi / 180

/-- `math.tau`. -/
def tau : ℝ := 2 * Real.pi

/-- anim.py:122-132 `periodic(trig_func, frequency, offset, scale, shift)`; a pair or `None` times a number is a `TypeError`. -/
def periodic (trig : ℝ → ℝ) (frequency offset scale shift : ℝ) : TFunc := fun t =>
  let offset := radians offset
  match t with
  | .num t => .ok (.num (trig (t * (tau * frequency + offset)) * scale + shift))
  | _ => .error .type

/-- anim.py:144-154 `sin_cos(frequency, offset, scale, shift)`. -/
def sinCos (frequency offset scale shift : ℝ) : TFunc := fun t =>
  let offset := radians offset
  match t with
  | .num t =>
    let t := t * (tau * frequency + offset)
    .ok (.pair (Real.sin t * scale + shift) (Real.cos t * scale + shift))
  | _ => .error .type

/-- anim.py:156-167 `hide_if(func, threshold)`; only numbers can be compared. -/
def hideIf (func : TFunc) (threshold : ℝ) : TFunc := fun t =>
  match func t with
  | .error e => .error e
  | .ok (.num val) => if val < threshold then .ok .none else .ok (.num val)
  | .ok _ => .error .type

/-- anim.py:73-80 `identity_xy()`; `None` becomes `(None, None)`, which no user of time functions accepts (`TypeError`). -/
def identityXy : TFunc := fun t =>
  match t with
  | .pair x y => .ok (.pair x y)
  | .num t => .ok (.pair t t)
  | .none => .error .type

/-- anim.py:82-92 `xy(x_func, y_func)`, for functions of numbers to numbers. -/
def xyFunc (fx fy : ℝ → ℝ) : TFunc := fun t =>
  match t with
  | .num t => .ok (.pair (fx t) (fy t))
  | _ => .error .type

/-! ### Animations of points -/

/-- anim.py:209-271 the animation objects. `orig` is a private copy of the position at creation (57). -/
inductive Anim
  | linear (pt : ℕ) (orig : Pt ℝ) (target : ℕ)
  | linearFunc (pt : ℕ) (orig : Pt ℝ) (target : ℕ) (func : TFunc)
  | sinusoidal (pt : ℕ) (orig : Pt ℝ) (target : ℕ) (frequency offset : ℝ)
  | circular (pt : ℕ) (orig : Pt ℝ) (radius frequency offset : ℝ)

/-- `Animation.point`. -/
def Anim.pt : Anim → ℕ
  | linear p _ _ => p
  | linearFunc p _ _ _ => p
  | sinusoidal p _ _ _ _ => p
  | circular p _ _ _ _ => p

/-- `Animation.orig`. -/
def Anim.orig : Anim → Pt ℝ
  | linear _ o _ => o
  | linearFunc _ o _ _ => o
  | sinusoidal _ o _ _ _ => o
  | circular _ o _ _ _ => o

/-- anim.py:212-217 `AnimationLinear(point, target)`. -/
def mkLinear (h : PH.Heap ℝ) (pt target : ℕ) : Except PyErr Anim :=
  match h[pt]? with
  | some (.point x y _) => if PH.isBasePoint h target then .ok (.linear pt ⟨x, y⟩ target) else .error .assertion
  | _ => .error .value

/-- anim.py:230-232 `AnimationLinearFunc(point, target, func)`. -/
def mkLinearFunc (h : PH.Heap ℝ) (pt target : ℕ) (func : TFunc) : Except PyErr Anim :=
  match h[pt]? with
  | some (.point x y _) => if PH.isBasePoint h target then .ok (.linearFunc pt ⟨x, y⟩ target func) else .error .assertion
  | _ => .error .value

/-- anim.py:241-247 `AnimationSinusoidal(point, target, frequency, offset)`. -/
def mkSinusoidal (h : PH.Heap ℝ) (pt target : ℕ) (frequency offset : ℝ) : Except PyErr Anim :=
  match h[pt]? with
  | some (.point x y _) => .ok (.sinusoidal pt ⟨x, y⟩ target frequency offset)
  | _ => .error .value

/-- anim.py:260-266 `AnimationCircular(point, radius, frequency, offset)`. -/
def mkCircular (h : PH.Heap ℝ) (pt : ℕ) (radius frequency offset : ℝ) : Except PyErr Anim :=
  match h[pt]? with
  | some (.point x y _) => .ok (.circular pt ⟨x, y⟩ radius frequency offset)
  | _ => .error .value

/-- `self.point.setxy(x, y)`. -/
def setxy (h : PH.Heap ℝ) (pt : ℕ) (x y : ℝ) : Except PyErr (PH.Heap ℝ) :=
  match PH.step h (.setXY pt x y) with
  | (h, .none) => .ok h
  | (_, some e) => .error e

/-- anim.py:219-224 `AnimationLinear.update`. -/
def updLinear (h : PH.Heap ℝ) (pt : ℕ) (orig : Pt ℝ) (target : ℕ) (t : TVal) : Except PyErr (PH.Heap ℝ) :=
  match PH.xy h target with
  | .error e => .error e
  | .ok targ =>
    match t with
    | .none => .error .type
    | .num t => setxy h pt ((1 - t) * orig.x + t * targ.x) ((1 - t) * orig.y + t * targ.y)
    | .pair tx ty => setxy h pt ((1 - tx) * orig.x + tx * targ.x) ((1 - ty) * orig.y + ty * targ.y)

/-- anim.py:219-224, 234-235, 249-254, 268-271 `update(t)`; an exception leaves the objects as they were. -/
def update (h : PH.Heap ℝ) (a : Anim) (t : TVal) : Except PyErr (PH.Heap ℝ) :=
  match a with
  | .linear pt orig target => updLinear h pt orig target t
  | .linearFunc pt orig target func =>
    match func t with
    | .error e => .error e
    | .ok t => updLinear h pt orig target t
  | .sinusoidal pt orig target frequency offset =>
    match t with
    | .num t =>
      let t := (1 - Real.cos (t * tau * frequency + offset * tau / 360)) * (1 / 2)
      match PH.xy h target with
      | .error e => .error e
      | .ok targ => setxy h pt ((1 - t) * orig.x + t * targ.x) ((1 - t) * orig.y + t * targ.y)
    | _ => .error .type
  | .circular pt orig radius frequency offset =>
    match t with
    | .num t =>
      let theta := t * tau * frequency + offset
      setxy h pt (orig.x + radius * Real.sin theta) (orig.y + radius * Real.cos theta)
    | _ => .error .type

/-- anim.py:283-285 `AnimationHolder.update(t)`: one after the other until one fails. -/
def updateAll (h : PH.Heap ℝ) : List Anim → TVal → PH.Heap ℝ × Option PyErr
  | [], _ => (h, .none)
  | a :: rest, t =>
    match update h a t with
    | .ok h' => updateAll h' rest t
    | .error e => (h, some e)

/-! ### Builders -/

/-- anim.py:452-464 `build_all(steps)`: the loop over `range(steps)` from `i` on; `draw h` is the image drawn (or the exception
raised) when the points are as in `h`. Simplification: `steps` is not negative, drawing does not change the points. -/
def buildFrom {I : Type} (draw : PH.Heap ℝ → Except PyErr I) (anims : List Anim) (steps : ℕ) :
    (k i : ℕ) → PH.Heap ℝ → PH.Heap ℝ × Except PyErr (List I)
  | 0, _, h => (h, .ok [])
  | k + 1, i, h =>
    match updateAll h anims (.num ((i : ℝ) / steps)) with
    | (h, some e) => (h, .error e)
    | (h, .none) =>
      match draw h with
      | .error e => (h, .error e)
      | .ok im =>
        match buildFrom draw anims steps k (i + 1) h with
        | (h, .ok ims) => (h, .ok (im :: ims))
        | (h, .error e) => (h, .error e)

/-- anim.py:462-464 `build_all(steps)`. -/
def buildAll {I : Type} (draw : PH.Heap ℝ → Except PyErr I) (anims : List Anim) (steps : ℕ) (h : PH.Heap ℝ) :
    PH.Heap ℝ × Except PyErr (List I) := buildFrom draw anims steps steps 0 h

/-- anim_simple.py:84-90 the loop of `animate` over the remaining `k` steps, the next being `step`; `draw t` is the image
`draw_func` makes at time `t`, `none` if it raises: then `__exit__` (31-32) has appended the image begun, `part t`. -/
def animateFrom {I : Type} (draw : ℝ → Option I) (part : ℝ → I) (t_low step_size : ℝ) :
    (k step : ℕ) → List I → List I × Bool
  | 0, _, images => (images, true)
  | k + 1, step, images =>
    let step_t := t_low + step * step_size
    match draw step_t with
    | some im => animateFrom draw part t_low step_size k (step + 1) (images ++ [im] ++ [im])
    | none => (images ++ [part step_t], false)

/-- anim_simple.py:80-90 `animate()`: the images afterwards, and whether it ended normally. -/
def animate {I : Type} (draw : ℝ → Option I) (part : ℝ → I) (t_low t_high : ℝ) (steps : ℕ) (images : List I) :
    Except PyErr (List I × Bool) :=
  match pyDiv (t_high - t_low) (steps : ℝ) with
  | .error e => .error e
  | .ok step_size => .ok (animateFrom draw part t_low step_size (steps + 1) 0 images)

end X7.Anim
