import Verif.Model.Anim
import Verif.Model.Transform

/-!
Model of the drawing calls of x7/geom/drawing.py `DrawingContext`: `set_matrix` (116-118), `line` (126-129), `polygon` (136-144), `grid`
(146-156), and of x7/geom/anim_simple.py: `StepContext` (21-32), `SimpleAnimation.__init__` (38-64), `next_step` (66-73), `finish_step`
(75-78), `animate` (80-90). An image is the list of what was drawn on it; colours are any type.
-/

noncomputable section

namespace X7.SA

/-- One thing drawn on a canvas, or in model coordinates. -/
inductive Shape (C : Type)
  | line (p q : Pt ℝ) (color : C) (width : ℝ)
  | polygon (pts : List (Pt ℝ)) (fill outline : Option C)

/-- The calls a drawing function makes on its context; `matrix` is a call on `dc.matrix`. -/
inductive Cmd (C : Type)
  | line (x1 y1 x2 y2 : ℝ) (color : C) (width : ℝ)
  | polygon (pts : List (Pt ℝ)) (fill outline : Option C)
  | grid (spacing : ℝ) (center : Pt ℝ)
  | setMatrix (m : Option (Mat3 ℝ))
  | matrix (op : TOp)
  | raise (e : PyErr)

/-- drawing.py:47-67 a context: its matrix, and what is on its layer. -/
structure Ctx (C : Type) where
  m : TState
  layer : List (Shape C)

/-- The colours `grid` uses. -/
structure GridColors (C : Type) where
  red : C
  black : C
  green : C
  blue : C

variable {C : Type} (gc : GridColors C)

/-- drawing.py:126-129 `line(x1, y1, x2, y2, color, width)`. -/
def Ctx.line (d : Ctx C) (x1 y1 x2 y2 : ℝ) (color : C) (width : ℝ) : Ctx C :=
  { d with layer := d.layer ++ [.line (d.m.transform ⟨x1, y1⟩) (d.m.transform ⟨x2, y2⟩) color width] }

/-- drawing.py:136-144 `polygon(points, fill, outline)`. -/
def Ctx.polygon (d : Ctx C) (pts : List (Pt ℝ)) (fill outline : Option C) : Ctx C × Option PyErr :=
  match d.m.transformPts pts with
  | .error e => (d, some e)
  | .ok qs => ({ d with layer := d.layer ++ [.polygon qs fill outline] }, none)

/-- drawing.py:152-155 the four lines for one `(r, c)`. -/
def Ctx.square (d : Ctx C) (r : ℝ) (c : C) : Ctx C :=
  (((d.line (-r) r r r c 1).line r (-r) r r c 1).line r (-r) (-r) (-r) c 1).line (-r) (-r) (-r) r c 1

/-- drawing.py:146-156 `grid(spacing, center)`: the arguments are unused. -/
def Ctx.grid (d : Ctx C) (_spacing : ℝ) (_center : Pt ℝ) : Ctx C :=
  ((((d.line 1000 0 (-1000) 0 gc.red 1).line 0 1000 0 (-1000) gc.red 1).square 100 gc.black).square 50 gc.green).square 10 gc.blue

/-- One call: the context afterwards and the exception. `set_matrix(None)` does nothing (drawing.py:116-118). -/
def Ctx.step (d : Ctx C) : Cmd C → Ctx C × Option PyErr
  | .line x1 y1 x2 y2 c w => (d.line x1 y1 x2 y2 c w, none)
  | .polygon pts f o => d.polygon pts f o
  | .grid s c => (d.grid gc s c, none)
  | .setMatrix none => (d, none)
  | .setMatrix (some m) => ({ d with m := d.m.setMatrix m }, none)
  | .matrix op => ({ d with m := (d.m.step op).st }, (d.m.step op).err)
  | .raise e => (d, some e)

/-- The calls of a drawing function one after the other, up to the first exception. -/
def Ctx.run (d : Ctx C) : List (Cmd C) → Ctx C × Option PyErr
  | [] => (d, none)
  | c :: rest =>
    match d.step gc c with
    | (d, none) => d.run rest
    | (d, some e) => (d, some e)

/-- anim_simple.py:38-64 the attributes of a `SimpleAnimation` used here; `draw t` are the calls `draw_func(dc, t)` makes. -/
structure SimpleAnimation (C : Type) where
  draw : ℝ → List (Cmd C)
  w : ℝ
  h : ℝ
  bbox : BBox ℝ
  steps : ℕ
  t_low : ℝ
  t_high : ℝ

/-- anim_simple.py:38-64 the constructor: `draw_bbox` is a 4-tuple. -/
def SimpleAnimation.new (draw : ℝ → List (Cmd C)) (w h b0 b1 b2 b3 : ℝ) (steps : ℕ) (t_low t_high : ℝ) : Except PyErr (SimpleAnimation C) :=
  if t_low ≠ t_high then .ok ⟨draw, w, h, BBox.mk' b0 b1 b2 b3, steps, t_low, t_high⟩ else .error .assertion

/-- anim_simple.py:66-73 `next_step()`: the context of the step. -/
def SimpleAnimation.nextStep (sa : SimpleAnimation C) : Except PyErr (Ctx C) :=
  let r := (TState.canvasFit sa.w sa.h 1 0 sa.h).scaleBBox sa.bbox (BBox.mk' 0 0 sa.w sa.h) false
  match r.err with
  | some e => .error e
  | none => .ok ⟨r.st, []⟩

/-- anim_simple.py:84-90, 31-32, 75-78 the loop of `animate` over the remaining `k` steps, the next being `step`. An image is what is on
its layer. -/
def SimpleAnimation.loop (sa : SimpleAnimation C) (step_size : ℝ) : (k step : ℕ) → List (List (Shape C)) → List (List (Shape C)) × Option PyErr
  | 0, _, images => (images, none)
  | k + 1, step, images =>
    match sa.nextStep with
    | .error e => (images, some e)
    | .ok dc =>
      match dc.run gc (sa.draw (sa.t_low + step * step_size)) with
      | (dc, some e) => (images ++ [dc.layer], some e)
      | (dc, none) => sa.loop step_size k (step + 1) (images ++ [dc.layer] ++ [dc.layer])

/-- anim_simple.py:80-90 `animate()`: the images afterwards and the exception. -/
def SimpleAnimation.animate (sa : SimpleAnimation C) (images : List (List (Shape C))) : List (List (Shape C)) × Option PyErr :=
  match pyDiv (sa.t_high - sa.t_low) (sa.steps : ℝ) with
  | .error e => (images, some e)
  | .ok step_size => sa.loop gc step_size (sa.steps + 1) 0 images

end X7.SA
