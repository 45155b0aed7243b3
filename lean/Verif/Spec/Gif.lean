import Mathlib.Data.Finset.Card
import Mathlib.Data.List.Dedup
import Mathlib.Data.Finset.Dedup
import Verif.Model.Gif
import Verif.Spec.Drawing

/-!
What saving an animation should do: the order of colours in a palette, and the library assumptions about PIL.
-/

namespace X7.Gif
open Drawing

/-- Colour `c` comes before colour `d` for the pixels `l`: it is more frequent, or as frequent and greater. -/
def Before {C : Type} [LinearOrder C] (l : List C) (c d : C) : Prop :=
  l.count d < l.count c ∨ (l.count d = l.count c ∧ d < c)

/-- Library assumptions: sizes and modes of the images made by PIL, and that the alpha channel is what was put there. -/
structure PIL.Laws {I C : Type} (pil : PIL I C) : Prop where
  resize_size : ∀ im w h, pil.width (pil.resize im w h) = w ∧ pil.height (pil.resize im w h) = h
  resize_mode : ∀ im w h, pil.mode (pil.resize im w h) = pil.mode im
  crop_size : ∀ im b, b.xl ≤ b.xh → b.yl ≤ b.yh →
    (pil.width (pil.crop im b) : ℤ) = b.xh - b.xl ∧ (pil.height (pil.crop im b) : ℤ) = b.yh - b.yl
  crop_mode : ∀ im b, pil.mode (pil.crop im b) = pil.mode im
  putalpha_size : ∀ im a, pil.width (pil.putalpha im a) = pil.width im ∧ pil.height (pil.putalpha im a) = pil.height im
  putalpha_mode : ∀ im a, pil.mode im = .rgba → pil.mode (pil.putalpha im a) = .rgba
  alpha_putalpha : ∀ im a, pil.mode im = .rgba → a.length = (pil.alpha im).length → pil.alpha (pil.putalpha im a) = a
  onBlack_size : ∀ im, pil.width (pil.onBlack im) = pil.width im ∧ pil.height (pil.onBlack im) = pil.height im
  onBlack_mode : ∀ im, pil.mode (pil.onBlack im) = .rgb
  quantize_size : ∀ im p, pil.width (pil.quantize im p) = pil.width im ∧ pil.height (pil.quantize im p) = pil.height im
  set_size : ∀ im n, pil.width (pil.setTransparency im n) = pil.width im ∧ pil.height (pil.setTransparency im n) = pil.height im
  set_corner : ∀ im n, pil.corner (pil.setTransparency im n) = pil.corner im
  set_transparency : ∀ im n, pil.transparency (pil.setTransparency im n) = some n

end X7.Gif
