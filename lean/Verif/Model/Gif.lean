import Mathlib.Data.List.Lex
import Verif.Model.Drawing

/-!
Model of saving an animation (x7/geom/anim.py): `getalpha` (39-42), `composed` (35-36), `rgb_to_transparent` with a palette (415-438),
`Builder.resize_for_gif` (475-500), `scaled` (502-513), `make_palette` (515-540), `save_animation` (542-563) up to the calls that write
the file. Images are abstract: PIL's operations are the fields of a structure.
-/

noncomputable section

namespace X7.Gif
open Drawing

/-! ### The palette -/

section
variable {C : Type} [LinearOrder C]

/-- anim.py:526-527 `colors.setdefault(color, 0); colors[color] += 1` on a dict in insertion order. -/
def bump : List (C × ℕ) → C → List (C × ℕ)
  | [], c => [(c, 1)]
  | (k, n) :: rest, c => if k = c then (k, n + 1) :: rest else (k, n) :: bump rest c

/-- anim.py:523-527 the histogram of the pixels of all images. -/
def histogram (images : List (List C)) : List (C × ℕ) :=
  images.foldl (fun colors image => image.foldl bump colors) []

/-- The order of Python tuples `(count, color)`. -/
def tupleLe (a b : ℕ × C) : Bool := decide (a.1 < b.1 ∨ (a.1 = b.1 ∧ a.2 ≤ b.2))

/-- anim.py:530 `list(reversed(sorted([(v, k) for k, v in colors.items()])))`. -/
def allColors (colors : List (C × ℕ)) : List (ℕ × C) :=
  ((colors.map fun kv => (kv.2, kv.1)).mergeSort tupleLe).reverse

/-- Library assumption: PIL's `palette.getcolor(color)` gives a colour that has none yet the next entry. -/
def getcolor (pal : List C) (c : C) : List C := if c ∈ pal then pal else pal ++ [c]

/-- anim.py:515-540 `make_palette(images)`, the images given by their pixels: the entries of the palette in order. -/
def makePalette (images : List (List C)) : List C :=
  ((allColors (histogram images)).take 256).foldl (fun pal vk => getcolor pal vk.2) []

end

/-! ### Frames -/

inductive Mode
  | rgb | rgba | p
  deriving DecidableEq

/-- PIL's operations on images `I` with colours `C`: `size`, `mode`, `getdata()`, `getbbox()`, `resize(size, BICUBIC)`, `crop(box)`, the
last channel, `putalpha(a)`, `alpha_composite` over a black image followed by `convert('RGB')`, `quantize(palette)`,
`getpixel((0, 0))` and the entry `'transparency'` of `info`. -/
structure PIL (I C : Type) where
  width : I → ℕ
  height : I → ℕ
  mode : I → Mode
  getdata : I → List C
  getbbox : I → Option PBox
  resize : I → ℕ → ℕ → I
  crop : I → PBox → I
  alpha : I → List ℕ
  putalpha : I → List ℕ → I
  onBlack : I → I
  quantize : I → List C → I
  corner : I → ℕ
  transparency : I → Option ℕ
  setTransparency : I → ℕ → I

variable {I C : Type} [LinearOrder C] (pil : PIL I C)

/-- anim.py:475-500 `resize_for_gif(image, x_size, y_size)`; PIL raises `ValueError` for an empty size. `getalpha` (39-42) passes its
assertion. -/
def resizeForGif (image : I) (x_size y_size : ℕ) : Except PyErr I :=
  if x_size = 0 ∨ y_size = 0 then .error .value
  else
    let shrunk := pil.resize image x_size y_size
    if pil.mode shrunk = .rgba then .ok (pil.putalpha shrunk ((pil.alpha shrunk).map fun v => if v < 255 then 0 else 255))
    else .ok shrunk

/-- anim.py:512 the list comprehension of `scaled`. -/
def resizeAll (x y : ℕ) : List I → Except PyErr (List I)
  | [] => .ok []
  | im :: rest =>
    match resizeForGif pil im x y with
    | .error e => .error e
    | .ok a =>
      match resizeAll x y rest with
      | .error e => .error e
      | .ok b => .ok (a :: b)

/-- anim.py:502-513 `scaled(scale, images=images)` without box, for an integer scale. -/
def scaled (scale : ℕ) (images : List I) : Except PyErr (List I) :=
  if scale = 1 then .ok images
  else
    match images with
    | [] => .error .index
    | im :: rest =>
      if scale = 0 then .error .zeroDivision
      else resizeAll pil (pil.width im / scale) (pil.height im / scale) (im :: rest)

/-- anim.py:554-556, 35-36 `[composed(img, 'black').convert('RGB') for img in images]`: `alpha_composite` raises `ValueError` unless
the image is RGBA. -/
def toRgb : List I → Except PyErr (List I)
  | [] => .ok []
  | im :: rest =>
    if pil.mode im = .rgba then
      match toRgb rest with
      | .error e => .error e
      | .ok b => .ok (pil.onBlack im :: b)
    else .error .value

/-- anim.py:415-438 `rgb_to_transparent(im, palette_image=palette)`, not on iOS. -/
def rgbToTransparent (palette : List C) (im : I) : Except PyErr I :=
  if pil.mode im = .rgb then
    let im := pil.quantize im palette
    .ok (pil.setTransparency im (pil.corner im))
  else .error .assertion

/-- anim.py:559 the list comprehension. -/
def transparentAll (palette : List C) : List I → Except PyErr (List I)
  | [] => .ok []
  | im :: rest =>
    match rgbToTransparent pil palette im with
    | .error e => .error e
    | .ok a =>
      match transparentAll palette rest with
      | .error e => .error e
      | .ok b => .ok (a :: b)

/-- anim.py:545-551 the automatic crop. -/
def autocropped (images : List I) : Except PyErr (List I) :=
  match images with
  | [] => .error .index
  | im :: rest =>
    match autocropBox (pil.width im) (pil.height im) ((im :: rest).map pil.getbbox) with
    | .error e => .error e
    | .ok bb => .ok ((im :: rest).map (pil.crop · bb))

/-- anim.py:552-559 from the scaled images on: the frames. `images` is not empty here. -/
def gifFrames (images : List I) : Except PyErr (List I) :=
  match images with
  | [] => .error .index
  | im :: rest =>
    match (if pil.mode im ≠ .rgb then toRgb pil (im :: rest) else .ok (im :: rest)) with
    | .error e => .error e
    | .ok images => transparentAll pil (makePalette (images.map pil.getdata)) images

/-- anim.py:542-563 `save_animation(output, images, autocrop)`: the frames written and the milliseconds per frame. -/
def saveAnimation (duration : ℝ) (autocrop : Bool) (images : List I) : Except PyErr (List I × ℤ) :=
  match (if autocrop then autocropped pil images else .ok images) with
  | .error e => .error e
  | .ok images =>
    match scaled pil 2 images with
    | .error e => .error e
    | .ok images =>
      match gifFrames pil images with
      | .error e => .error e
      | .ok frames => .ok (frames, pyInt (1000 * duration / images.length))

end X7.Gif
