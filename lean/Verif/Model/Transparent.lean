import Verif.Model.Pixel

/-!
Model of x7/geom/imagehelp.py: `rgba_to_transparent` (102-128), `rgb_to_transparent` (132-148), `palette_image` (151-165). PIL's conversion to a
palette is a parameter; its palettes are those of Pillow up to 8 (`getcolor` gives a new colour the next free entry).
-/

namespace X7.Trans
open Pix

/-- A colour without alpha. -/
abbrev Rgb := ℕ × ℕ × ℕ

/-- Images of the modes these functions tell apart. -/
inductive AnyImg (w h : ℕ)
  | rgb (im : Fin w → Fin h → Rgb)
  | rgba (im : Img w h)

/-- A palette image: the entry of each pixel, the colours of the entries (black beyond the list), and `info['transparency']`. -/
structure PImg (w h : ℕ) where
  px : Fin w → Fin h → ℕ
  palette : List Rgb
  transparency : Option ℕ

variable {w h : ℕ}

/-- `im.convert('RGB')` of an RGBA image: alpha is dropped. -/
def toRgb (im : Img w h) : Fin w → Fin h → Rgb := fun x y => ((im x y).r, (im x y).g, (im x y).b)

/-- imagehelp.py:113, 145 `im.info['transparency'] = im.getpixel((0, 0))`. -/
def cornerTransparent [NeZero w] [NeZero h] (p : PImg w h) : PImg w h := { p with transparency := some (p.px 0 0) }

/-- imagehelp.py:102-128 `rgba_to_transparent(im, colors)`; `adaptive n im` is `im.convert('P', palette=ADAPTIVE, colors=n)`. The branch for
`cheap_hack = False` (117-126) is never run. -/
def rgbaToTransparent [NeZero w] [NeZero h] (adaptive : ℕ → (Fin w → Fin h → Rgb) → PImg w h) (im : AnyImg w h) (colors : ℕ) :
    Except PyErr (PImg w h) :=
  match im with
  | .rgb _ => .error .assertion
  | .rgba im => .ok (cornerTransparent (adaptive (colors - 1) (toRgb im)))

/-- Pillow `remap_palette([1, 0])`: entry 1 becomes 0, entry 0 becomes 1, and the entries not named become 0. -/
def remap (p : PImg w h) : PImg w h :=
  { p with px := fun x y => if p.px x y = 0 then 1 else 0, palette := [p.palette.getD 1 (0, 0, 0), p.palette.getD 0 (0, 0, 0)] }

/-- imagehelp.py:132-148 `rgb_to_transparent(im, colors, palette_image)`; `quantize p im` is `im.quantize('P', palette=p, dither=NONE)`. -/
def rgbToTransparent [NeZero w] [NeZero h] (adaptive : ℕ → (Fin w → Fin h → Rgb) → PImg w h)
    (quantize : List Rgb → (Fin w → Fin h → Rgb) → PImg w h) (im : AnyImg w h) (colors : ℕ) (palette : Option (List Rgb)) :
    Except PyErr (PImg w h) :=
  match im with
  | .rgba _ => .error .assertion
  | .rgb im =>
    match palette with
    | some p => .ok (cornerTransparent (quantize p im))
    | none =>
      let im := remap (adaptive colors im)
      .ok (cornerTransparent { im with palette := (0, 0, 0) :: List.replicate 255 (255, 255, 255) })

/-- Pillow `palette.getcolor(color)`: a colour that has none yet gets the next entry. -/
def getcolor (colors : List Rgb) (c : Rgb) : List Rgb := if c ∈ colors then colors else colors ++ [c]

/-- imagehelp.py:162-163 one round of the loop on the colours of the palette. -/
def paletteStep (colors : List Rgb) (c : ℕ) : List Rgb :=
  if c > colors.length then getcolor colors (c, (c + 128) % 256, (500 - c) % 256) else colors

/-- imagehelp.py:160-161 `im.paste(c, (ox, 0, ox + 4, 64))`. -/
def pasteStripe (px : Fin 1024 → Fin 64 → ℕ) (c : ℕ) : Fin 1024 → Fin 64 → ℕ := fun x y =>
  let ox := c * 4
  if ox ≤ x ∧ (x : ℕ) < ox + 4 then c else px x y

/-- imagehelp.py:151-165 `palette_image(empty_image)`. -/
def paletteImage (empty_image : Bool) : PImg 1024 64 :=
  let colors := getcolor (getcolor [] (0, 0, 0)) (255, 255, 255)
  let px : Fin 1024 → Fin 64 → ℕ := fun _ _ => 0
  if empty_image then ⟨px, colors, none⟩
  else
    let s := (List.range 256).foldl (fun s c => (pasteStripe s.1 c, paletteStep s.2 c)) (px, colors)
    ⟨s.1, s.2, none⟩

end X7.Trans
