import Mathlib.Data.Fintype.Prod
import Mathlib.Data.Finset.Lattice.Fold
import Mathlib.Order.Fin.Basic
import Verif.Model.Drawing

/-!
Model of images down to their pixels: x7/geom/drawing.py `make_shadow` (26-38) and what `DrawingContext.image` (74-87) shows, x7/geom/anim.py
`single` (30-32) and `composed` (35-36). PIL's `alpha_composite` and `ImageChops` are transcribed (library assumption); its blur filter
and brightness are parameters.
-/

namespace X7.Pix

/-- One byte channel of an image of `w` times `h` pixels: the value at column `x`, row `y`. -/
abbrev Chan (w h : ℕ) := Fin w → Fin h → Fin 256

/-- An RGBA pixel. -/
@[ext] structure Px where
  r : Fin 256
  g : Fin 256
  b : Fin 256
  a : Fin 256
  deriving DecidableEq

/-- An RGBA image of `w` times `h` pixels. -/
abbrev Img (w h : ℕ) := Fin w → Fin h → Px

/-- PIL `libImaging/AlphaComposite.c`: `SHIFTFORDIV255(a)`. -/
def div255 (a : ℕ) : ℕ := (a / 256 + a) / 256

/-- PIL `libImaging/AlphaComposite.c`: one colour byte of `src` over `dst`, `coef1` being the weight of `src` (7 bits of precision). -/
def blend (coef1 : ℕ) (dst src : Fin 256) : Fin 256 :=
  let tmp := src.val * coef1 + dst.val * (255 * 128 - coef1)
  Fin.ofNat 256 (div255 (tmp + 128 * 128) / 128)

/-- PIL `libImaging/AlphaComposite.c`: the pixel of `Image.alpha_composite(dst, src)`. -/
def over (dst src : Px) : Px :=
  if src.a = 0 then dst
  else
    let outa255 := src.a.val * 255 + dst.a.val * (255 - src.a.val)
    let coef1 := src.a.val * 255 * 255 * 128 / outa255
    ⟨blend coef1 dst.r src.r, blend coef1 dst.g src.g, blend coef1 dst.b src.b, Fin.ofNat 256 (div255 (outa255 + 128))⟩

variable {w h : ℕ}

/-- `Image.alpha_composite(dst, src)` of images of equal size. -/
def composite (dst src : Img w h) : Img w h := fun x y => over (dst x y) (src x y)

/-- anim.py:30-32 `single(im, color)`. -/
def single (_im : Img w h) (color : Px) : Img w h := fun _ _ => color

/-- anim.py:35-36 `composed(im, color)`. -/
def composed (im : Img w h) (color : Px) : Img w h := composite (single im color) im

/-- drawing.py:53 `Image.new('RGBA', image.size, (0, 0, 0, 0))`. -/
def blank : Img w h := fun _ _ => ⟨0, 0, 0, 0⟩

/-- `ImageChops.lighter(a, b)`. -/
def lighter (a b : Chan w h) : Chan w h := fun x y => max (a x y) (b x y)

/-- `i.getextrema()[1]`: the largest value. -/
def extremum (c : Chan w h) : Fin 256 := Finset.univ.sup fun p : Fin w × Fin h => c p.1 p.2

/-- drawing.py:28 `i.paste(i.getextrema()[1], (0, 0) + i.size)`. -/
def pasteMax (c : Chan w h) : Chan w h := fun _ _ => extremum c

section
variable [NeZero w] [NeZero h]

/-- `ImageChops.offset(c, dx, dy)`: moved by `(dx, dy)`; what leaves the image on one side comes in on the other. -/
def offset (c : Chan w h) (dx dy : ℕ) : Chan w h := fun x y => c (x - Fin.ofNat w dx) (y - Fin.ofNat h dy)

/-- drawing.py:31-35 the loop, `n` rounds: `(a, sa)` afterwards. `blur` is `filter(ImageFilter.BLUR)`, `dim` is what
`ImageEnhance.Brightness(..).enhance(0.95)` makes of a byte. -/
def shadowLoop (blur : Chan w h → Chan w h) (dim : Fin 256 → Fin 256) : ℕ → Chan w h × Chan w h → Chan w h × Chan w h
  | 0, s => s
  | n + 1, (a, sa) =>
    let a := offset a 4 3
    let a := blur a
    let a : Chan w h := fun x y => dim (a x y)
    shadowLoop blur dim n (a, lighter sa a)

/-- drawing.py:26-38 `make_shadow(base)`. -/
def makeShadow (blur : Chan w h → Chan w h) (dim : Fin 256 → Fin 256) (base : Img w h) : Img w h :=
  let r := pasteMax fun x y => (base x y).r
  let g := pasteMax fun x y => (base x y).g
  let b := pasteMax fun x y => (base x y).b
  let a : Chan w h := fun x y => (base x y).a
  let a0 := a
  let sa := offset a 4 3
  let sa := (shadowLoop blur dim 6 (a, sa)).2
  let sa := blur sa
  let sa := lighter sa a0
  fun x y => ⟨r x y, g x y, b x y, sa x y⟩

end

end X7.Pix
