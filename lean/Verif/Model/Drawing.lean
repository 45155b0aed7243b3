import Mathlib.Data.Int.Basic
import Verif.Model.Transform

/-!
Model of x7/geom/drawing.py: `bbox_max` (8-10), `DrawingContext` (41-124: crop, scaling, shadow), of anim.py `Builder.max_bbox`
(466-472) and the crop box of `save_animation` (545-551), and of imagehelp.py `image_fix_palette` (58-72). Images are abstract: PIL's
operations on them are parameters.
-/

noncomputable section

namespace X7.Drawing

/-! ### Pixel boxes -/

/-- A PIL box `(left, upper, right, lower)`; the right and lower sides are exclusive. -/
@[ext] structure PBox where
  xl : ℤ
  yl : ℤ
  xh : ℤ
  yh : ℤ

/-- drawing.py:8-10 `bbox_max(bbox_a, bbox_b)`; `zip` of `None` is a `TypeError`. Simplification: boxes have four entries. -/
def bboxMax : Option PBox → Option PBox → Except PyErr PBox
  | some a, some b => .ok ⟨min a.xl b.xl, min a.yl b.yl, max a.xh b.xh, max a.yh b.yh⟩
  | _, _ => .error .type

/-- anim.py:469-470 the loop of `max_bbox` from the box `bb` on. -/
def maxBBoxGo (bb : Option PBox) : List (Option PBox) → Except PyErr (Option PBox)
  | [] => .ok bb
  | b :: rest =>
    match bboxMax bb b with
    | .ok c => maxBBoxGo (some c) rest
    | .error e => .error e

/-- anim.py:466-472 `max_bbox(images)`, given what `getbbox()` returns for each image (`None`: nothing in the image). -/
def maxBBox : List (Option PBox) → Except PyErr (Option PBox)
  | [] => .error .index
  | b :: rest => maxBBoxGo b rest

/-- anim.py:545-551 the crop box of `save_animation`, `(xs, ys)` being the size of the first image; unpacking `None` is a
`TypeError`. -/
def autocropBox (xs ys : ℤ) (boxes : List (Option PBox)) : Except PyErr PBox :=
  match maxBBox boxes with
  | .error e => .error e
  | .ok none => .error .type
  | .ok (some b) =>
    let radius := 16
    .ok ⟨max 0 (b.xl - radius), max 0 (b.yl - radius), min xs (b.xh + radius), min ys (b.yh + radius)⟩

/-! ### Scaling -/

/-- Python `int(x)` of a float: truncation towards zero. -/
def pyInt (x : ℝ) : ℤ := if 0 ≤ x then ⌊x⌋ else ⌈x⌉

/-- drawing.py:120-121 `scale_pt(x, y)`. -/
def scalePt (m : TState) (x y : ℝ) : Pt ℝ := m.transform ⟨x, y⟩

/-- drawing.py:123-124 `unscale_pt(px, py)`. -/
def unscalePt (m : TState) (px py : ℝ) : TState × Except PyErr (Pt ℝ) := m.untransform ⟨px, py⟩

/-- drawing.py:69-72 `crop_to_pixels((c0, c1, c2, c3))`. -/
def cropToPixels (m : TState) (c0 c1 c2 c3 : ℝ) : PBox :=
  let p := scalePt m c0 c1
  let q := scalePt m c2 c3
  let x1 := pyInt p.x
  let y1 := pyInt p.y
  let x2 := pyInt q.x
  let y2 := pyInt q.y
  ⟨min x1 x2, min y1 y2, max x1 x2, max y1 y2⟩

/-- drawing.py:89-91 `stroke_width(width)`. -/
def strokeWidth (m : TState) (width : ℝ) : ℝ := m.transformWidth width

/-! ### The drawing context -/

/-- drawing.py:52-67 the attributes of a `DrawingContext` used here. Images are objects changed in place by drawing: `imgs` holds
them, attributes are positions in it; `draw` is the image which the `ImageDraw` object in `self.draw` paints on. -/
structure DC (I C : Type) where
  imgs : List I
  background : ℕ
  layer : ℕ
  draw : ℕ
  shadow : Option ℕ
  shadowColor : Option C

variable {I C : Type}

/-- drawing.py:47-67 a new context on a background image, `blank` being a transparent image of its size. -/
def DC.new (bg blank : I) : DC I C := ⟨[bg, blank], 0, 1, 1, none, none⟩

/-- drawing.py:93-96 `alloc_shadow()`. -/
def DC.allocShadow (blank : I) (d : DC I C) : DC I C :=
  match d.shadow with
  | some _ => d
  | none => { d with imgs := d.imgs ++ [blank], shadow := some d.imgs.length }

/-- drawing.py:111 `self.shadow = make_shadow(self.shadow)`: a new image. -/
def DC.refreshShadow (makeShadow : I → I) (d : DC I C) : DC I C :=
  match d.shadow with
  | none => d
  | some s =>
    match d.imgs[s]? with
    | none => d
    | some im => { d with imgs := d.imgs ++ [makeShadow im], shadow := some d.imgs.length }

/-- drawing.py:98-111 `shadow_draw(model, color)`; `body` is `model.draw(self)`, which may raise. -/
def DC.shadowDraw (blank : I) (makeShadow : I → I) (body : DC I C → DC I C × Option PyErr) (color : C) (d : DC I C) :
    DC I C × Option PyErr :=
  let draw := d.draw
  let d := d.allocShadow blank
  let r := body { d with draw := d.shadow.getD 0, shadowColor := some color }
  let after := { r.1 with draw := draw, shadowColor := none }
  match r.2 with
  | some e => (after, some e)
  | none => (after.refreshShadow makeShadow, none)

/-- What `model.draw(dc)` does: paint on the image of `dc.draw` (the fill may depend on `dc.shadow_color`, model.py:254-255), or
raise an exception. -/
inductive Step (I C : Type)
  | paint (f : Option C → I → I)
  | raise (e : PyErr)

/-- The image painted on by one step. -/
def DC.paintWith (d : DC I C) (f : Option C → I → I) : DC I C :=
  { d with imgs := d.imgs.modify d.draw (f d.shadowColor) }

/-- `model.draw(dc)` as a list of steps. -/
def runSteps : List (Step I C) → DC I C → DC I C × Option PyErr
  | [], d => (d, none)
  | .raise e :: _, d => (d, some e)
  | .paint f :: rest, d => runSteps rest (d.paintWith f)

/-- drawing.py:74-88 `image(crop=False)`: `over` is `Image.alpha_composite`. -/
def DC.image (over : I → I → I) (d : DC I C) : Option I :=
  match d.imgs[d.background]?, d.imgs[d.layer]? with
  | some bg, some la =>
    match d.shadow with
    | none => some (over bg la)
    | some s => (d.imgs[s]?).map fun sh => over (over bg sh) la
  | _, _ => none

/-! ### Palettes -/

/-- imagehelp.py:64 `color`. -/
def fixColor : ℕ → ℕ
  | 0 => 64
  | 1 => 128
  | _ => 255

/-- imagehelp.py:65-71 the body of the loop for entry `n`, the palette as bytes. `int(color[c] * alpha / 255)` is exact: the quotient
is an integer or at least 1/255 away from one. -/
def fixEntry (pal : List ℕ) (n : ℕ) : Except PyErr (List ℕ) :=
  let idx := n * 4
  match pal[idx + 3]? with
  | none => .error .index
  | some alpha =>
    if alpha ≠ 0 ∧ alpha ≠ 255 then
      .ok ((((pal.set (idx + 0) (fixColor 0 * alpha / 255)).set (idx + 1) (fixColor 1 * alpha / 255)).set (idx + 2)
        (fixColor 2 * alpha / 255)).set (idx + 3) 255)
    else .ok pal

/-- imagehelp.py:65 the loop over `k` entries from `n` on: the palette afterwards, and the exception. -/
def fixLoop : (k n : ℕ) → List ℕ → List ℕ × Option PyErr
  | 0, _, pal => (pal, none)
  | k + 1, n, pal =>
    match fixEntry pal n with
    | .ok pal => fixLoop k (n + 1) pal
    | .error e => (pal, some e)

/-- imagehelp.py:58-72 `image_fix_palette(im)`: the palette bytes afterwards and the exception; `rgba` is whether the palette mode
is `'RGBA'`. -/
def imageFixPalette (rgba : Bool) (pal : List ℕ) : List ℕ × Option PyErr :=
  if rgba then fixLoop 256 0 pal else (pal, some .assertion)

end X7.Drawing
