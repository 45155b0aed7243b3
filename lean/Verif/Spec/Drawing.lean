import Verif.Model.Drawing

/-!
Specifications for drawing contexts: pixels, smallest boxes, entries of a palette.
-/

namespace X7.Drawing

/-- Pixel `(x, y)` lies in the box. -/
def PBox.Mem (b : PBox) (p : ℤ × ℤ) : Prop := b.xl ≤ p.1 ∧ p.1 < b.xh ∧ b.yl ≤ p.2 ∧ p.2 < b.yh

/-- `b` is the smallest box around the pixels `S`: it contains them, and each of its sides is reached. -/
def Tight (S : Set (ℤ × ℤ)) (b : PBox) : Prop :=
  (∀ p ∈ S, b.Mem p) ∧ (∃ p ∈ S, p.1 = b.xl) ∧ (∃ p ∈ S, p.1 = b.xh - 1) ∧ (∃ p ∈ S, p.2 = b.yl) ∧ ∃ p ∈ S, p.2 = b.yh - 1

/-- Library assumption: what PIL's `getbbox()` returns for an image whose non-zero pixels are `S`. -/
def GetBBox (S : Set (ℤ × ℤ)) : Option PBox → Prop
  | none => S = ∅
  | some b => Tight S b

/-- The `(red, green, blue, alpha)` of palette entry `n`. -/
def entry (pal : List ℕ) (n : ℕ) : ℕ × ℕ × ℕ × ℕ :=
  (pal.getD (4 * n) 0, pal.getD (4 * n + 1) 0, pal.getD (4 * n + 2) 0, pal.getD (4 * n + 3) 0)

/-- What fixing makes of one entry: transparent and opaque ones are kept, the others become opaque with a tint of
`(64, 128, 255)` darkened by their alpha. -/
def fixed : ℕ × ℕ × ℕ × ℕ → ℕ × ℕ × ℕ × ℕ
  | (r, g, b, a) => if a = 0 ∨ a = 255 then (r, g, b, a) else (64 * a / 255, 128 * a / 255, a, 255)

/-- The image that painting steps make of an image, with a given shadow colour, up to the first exception. -/
def painted {I C : Type} (c : Option C) : List (Step I C) → I → I
  | .paint f :: rest, im => painted c rest (f c im)
  | _, im => im

/-- The first exception of some painting steps. -/
def failure {I C : Type} : List (Step I C) → Option PyErr
  | [] => none
  | .raise e :: _ => some e
  | .paint _ :: rest => failure rest

/-- A context as the constructor and its methods leave it: the attributes name existing, different images. -/
structure DC.WF {I C : Type} (d : DC I C) : Prop where
  bg : d.background < d.imgs.length
  la : d.layer < d.imgs.length
  ne : d.background ≠ d.layer
  sh : ∀ s, d.shadow = some s → s < d.imgs.length ∧ s ≠ d.background ∧ s ≠ d.layer

/-- A use of a context: `model.draw(dc)` or `dc.shadow_draw(model, color)`, a model being its painting steps. -/
inductive Use (I C : Type)
  | draw (steps : List (Step I C))
  | shadow (steps : List (Step I C)) (color : C)

/-- What is on the layer after some uses: everything drawn, in order. -/
def layerOf {I C : Type} : List (Use I C) → I → I
  | [], im => im
  | .draw steps :: rest, im => layerOf rest (painted none steps im)
  | .shadow _ _ :: rest, im => layerOf rest im

/-- What the shadow is after some uses: each shadow is drawn on the one so far, a blank one at first, and all of it is blurred unless the
drawing fails. -/
def shadowOf {I C : Type} (blank : I) (blur : I → I) : List (Use I C) → Option I → Option I
  | [], sh => sh
  | .draw _ :: rest, sh => shadowOf blank blur rest sh
  | .shadow steps c :: rest, sh =>
    let drawn := painted (some c) steps (sh.getD blank)
    shadowOf blank blur rest (some (if failure steps = none then blur drawn else drawn))

end X7.Drawing
