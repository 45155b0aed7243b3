import Verif.Model.Pixel

/-!
Specifications for pixels: what is assumed of PIL's blur and brightness, and where an image has something on it.
-/

namespace X7.Pix

variable {w h : ℕ}

/-- Library assumption about `filter(ImageFilter.BLUR)` (a 5 by 5 kernel) and `enhance(0.95)`: a blurred byte is zero if all bytes at most
two columns and two rows away are; the two outermost rows and columns are copied; brightness keeps zero. -/
structure Laws (blur : Chan w h → Chan w h) (dim : Fin 256 → Fin 256) : Prop where
  near : ∀ (c : Chan w h) (x : Fin w) (y : Fin h),
    (∀ (x' : Fin w) (y' : Fin h), |(x' : ℤ) - x| ≤ 2 → |(y' : ℤ) - y| ≤ 2 → c x' y' = 0) → blur c x y = 0
  border : ∀ (c : Chan w h) (x : Fin w) (y : Fin h), (x : ℕ) < 2 ∨ w ≤ (x : ℕ) + 2 ∨ (y : ℕ) < 2 ∨ h ≤ (y : ℕ) + 2 → blur c x y = c x y
  dim : dim 0 = 0

/-- Pixel `(x, y)` lies in the box, borders included. -/
def InBox (xl xh yl yh : ℤ) (x : Fin w) (y : Fin h) : Prop := xl ≤ x ∧ (x : ℤ) ≤ xh ∧ yl ≤ y ∧ (y : ℤ) ≤ yh

/-- Everything on the image (whatever is not fully transparent) lies in the box. -/
def Within (im : Img w h) (xl xh yl yh : ℤ) : Prop := ∀ x y, (im x y).a ≠ 0 → InBox xl xh yl yh x y

end X7.Pix
