import Verif.Model.Vec

/-!
Model of `image_info_palette` and `image_info` (x7/geom/imagehelp.py:10-55, 75-99): what is printed, line by line, and the exception
that ends it. What PIL says about an image (mode, size, bounding box, pixels, palette) is the input. The text of a line is kept as its
parts. The loop under `show_for_weird_bug` (36-45) is never run.
-/

namespace X7.Info

/-- What PIL knows of a palette: `palette.mode`, `palette.rawmode`, the bytes `palette.palette`. -/
structure Pal where
  mode : String
  rawmode : Option String
  bytes : List ℕ

/-- What PIL knows of an image with pixels of type `V`: `mode`, `getbbox()`, `size`, `getpixel`, `palette` and `getpalette()`. -/
structure Im (V : Type) where
  mode : String
  bbox : Option (ℕ × ℕ × ℕ × ℕ)
  xs : ℕ
  ys : ℕ
  px : ℕ → ℕ → V
  palette : Option Pal
  colours : List ℕ

/-- An entry of a printed row: a pixel or `...` -/
inductive Item (V : Type)
  | pix (v : V)
  | dots
  deriving DecidableEq

/-- A printed line. -/
inductive Line (V : Type)
  /-- imagehelp.py:78 -/
  | image (mode : String) (bbox : Option (ℕ × ℕ × ℕ × ℕ))
  /-- imagehelp.py:79 -/
  | info
  /-- imagehelp.py:14 -/
  | colours
  /-- imagehelp.py:15 -/
  | palette
  /-- imagehelp.py:17 -/
  | mode (mode : String) (channels : ℕ)
  /-- imagehelp.py:18 -/
  | raw (rawmode : Option String)
  /-- imagehelp.py:20 -/
  | len (n : ℕ)
  /-- imagehelp.py:31 -/
  | byte (idx v : ℕ)
  /-- imagehelp.py:29 -/
  | moreBytes
  /-- imagehelp.py:55 -/
  | colour (n : ℕ) (c : List ℕ)
  /-- imagehelp.py:53 -/
  | moreColours
  /-- imagehelp.py:83 -/
  | zero (v : V)
  /-- imagehelp.py:99 -/
  | row (n : ℕ) (items : List (Item V))
  deriving DecidableEq

variable {V : Type}

/-- imagehelp.py:24-31, from index `idx` with the counter `total`. -/
def bytesLoop : ℕ → List ℕ → ℤ → List (Line V)
  | _, [], _ => []
  | idx, b :: rest, total =>
    if b ≠ 0 then
      if total + 1 ≥ 10 then
        (if total + 1 = 10 then [.moreBytes] else []) ++ bytesLoop (idx + 1) rest (total + 1)
      else .byte idx b :: bytesLoop (idx + 1) rest (total + 1)
    else bytesLoop (idx + 1) rest total

/-- imagehelp.py:48 `tuple([pal_colors[n + cn * 256] for cn in range(n_channels)])`. -/
def colourOf (cols : List ℕ) (channels n : ℕ) : Except PyErr (List ℕ) :=
  (List.range channels).mapM fun cn => match cols[n + cn * 256]? with
    | some v => .ok v
    | none => .error .index

/-- imagehelp.py:47-55, over the given numbers with the counter `total`. -/
def coloursLoop (cols : List ℕ) (channels : ℕ) : List ℕ → ℤ → List (Line V) × Option PyErr
  | [], _ => ([], none)
  | n :: rest, total =>
    match colourOf cols channels n with
    | .error e => ([], some e)
    | .ok c =>
      if c.any (· ≠ 0) then
        let r := coloursLoop cols channels rest (total + 1)
        if total + 1 ≥ 20 then ((if total + 1 = 20 then [.moreColours] else []) ++ r.1, r.2)
        else (.colour n c :: r.1, r.2)
      else coloursLoop cols channels rest total

/-- imagehelp.py:10-55 `image_info_palette`. Without a palette `pal.mode` raises AttributeError, after two lines. -/
def imageInfoPalette (im : Im V) : List (Line V) × Option PyErr :=
  match im.palette with
  | none => ([.colours, .palette], some .attribute)
  | some pal =>
    let channels := pal.mode.length
    if channels = 0 then ([.colours, .palette, .mode pal.mode 0, .raw pal.rawmode], some .zeroDivision)
    else
      let palLen := pal.bytes.length / channels
      let r := coloursLoop im.colours channels (List.range palLen) 0
      ([.colours, .palette, .mode pal.mode channels, .raw pal.rawmode, .len palLen] ++ bytesLoop 0 pal.bytes (-10) ++ r.1, r.2)

variable [DecidableEq V]

/-- imagehelp.py:90-97: what a pixel does to `data`. -/
def addPixel (zero : V) (data : List (Item V)) (v : V) : List (Item V) :=
  if data = [] then data ++ [.pix v]
  else if v ≠ zero then data ++ [.pix v]
  else if data.getLast? = some (.pix zero) then data ++ [.dots]
  else if data.getLast? ≠ some .dots then data ++ [.pix v]
  else data

/-- imagehelp.py:87-97: the entries of a row. -/
def rowItems (zero : V) (pixels : List V) : List (Item V) := pixels.foldl (addPixel zero) []

/-- imagehelp.py:75-99 `image_info`. `getpixel((0, 0))` raises IndexError for an image without pixels. -/
def imageInfo (im : Im V) : List (Line V) × Option PyErr :=
  let p := imageInfoPalette im
  let head := [.image im.mode im.bbox, .info] ++ p.1
  match p.2 with
  | some e => (head, some e)
  | none =>
    if im.xs = 0 ∨ im.ys = 0 then (head, some .index)
    else
      let zero := im.px 0 0
      let lowY := match im.bbox with
        | some (_, y, _, _) => y
        | none => 0
      let lo := lowY - 2
      let hi := min im.ys (lowY + 4)
      (head ++ .zero zero ::
        (List.range' lo (hi - lo)).map fun row =>
          .row row (rowItems zero ((List.range (min 256 im.xs)).map fun x => im.px x row)), none)

end X7.Info
