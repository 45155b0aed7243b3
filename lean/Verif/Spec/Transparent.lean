import Verif.Model.Transparent

/-!
Specification for palette images: what is seen of them.
-/

namespace X7.Trans

/-- What is seen at a pixel: nothing if its entry is the transparent one, else the colour of the entry. -/
def PImg.seen {w h : ℕ} (p : PImg w h) (x : Fin w) (y : Fin h) : Option Rgb :=
  if p.transparency = some (p.px x y) then none else some (p.palette.getD (p.px x y) (0, 0, 0))

end X7.Trans
