import Mathlib.Tactic.Linarith
import Mathlib.Tactic.FinCases
import Mathlib.Data.ZMod.Defs
import Verif.Spec.Pixel
import Verif.Props.Drawing

/-!
C91: the pixels of a drawing: the layer over the shadow over the background, and where a shadow falls.
-/

namespace X7.Pix
open Drawing

/-! ### C91: one pixel over another -/

/-- Rounding as PIL does it: a sum between 255 times `m` and 255 times `M` gives a byte between `m` and `M`. -/
theorem div255_between {S m M : ℕ} (h1 : 255 * m ≤ S) (h2 : S ≤ 255 * M) (hM : M ≤ 255) :
    m ≤ div255 (128 * S + 128 * 128) / 128 ∧ div255 (128 * S + 128 * 128) / 128 ≤ M := by
  simp only [div255]
  obtain ⟨f, hf⟩ : ∃ f, f = (128 * S + 128 * 128) / 256 := ⟨_, rfl⟩
  obtain ⟨e, he⟩ : ∃ e, e = (f + (128 * S + 128 * 128)) / 256 := ⟨_, rfl⟩
  have f1 : 2 * f ≤ S + 128 := by omega
  have f2 : S + 127 ≤ 2 * f := by omega
  have e1 : 256 * e ≤ f + (128 * S + 128 * 128) := by omega
  have e2 : f + (128 * S + 128 * 128) ≤ 256 * e + 255 := by omega
  rw [← hf, ← he]
  clear hf he
  constructor
  · rw [Nat.le_div_iff_mul_le (by norm_num)]; omega
  · rw [← Nat.lt_succ_iff, Nat.div_lt_iff_lt_mul (by norm_num)]; omega

theorem blend_opaque : ∀ d s : Fin 256, blend (255 * 128) d s = s := by
  intro d s
  have hs := s.isLt
  apply Fin.ext
  have e : s.val * (255 * 128) = 128 * (255 * s.val) := by ring
  have k := div255_between (le_refl (255 * s.val)) le_rfl (by omega)
  simp only [blend, Fin.ofNat_eq_cast, Fin.val_natCast, Nat.sub_self, Nat.mul_zero, Nat.add_zero, e]
  rw [le_antisymm k.2 k.1]
  exact Nat.mod_eq_of_lt hs

/-- C91: a fully transparent pixel leaves what is below it, an opaque one hides it, and on an opaque pixel the result is opaque. -/
theorem C91_over (d s : Px) :
    (s.a = 0 → over d s = d) ∧ (s.a = 255 → over d s = s) ∧ (d.a = 255 → (over d s).a = 255) := by
  refine ⟨fun h => by simp [over, h], fun h => ?_, fun h => ?_⟩
  · have e : (255 : Fin 256) ≠ 0 := by decide
    have v : (255 : Fin 256).val = 255 := rfl
    have c : 255 * 255 * 255 * 128 / (255 * 255 + d.a.val * (255 - 255)) = 255 * 128 := by simp
    have a : div255 (255 * 255 + d.a.val * (255 - 255) + 128) = 255 := by simp [div255]
    ext1 <;> simp only [over, h, e, if_false, v, c, a, blend_opaque]
    rfl
  · by_cases hs : s.a = 0
    · simp [over, hs, h]
    · have hl := s.a.isLt
      have v : (255 : Fin 256).val = 255 := rfl
      have a : s.a.val * 255 + 255 * (255 - s.a.val) = 65025 := by omega
      simp only [over, hs, if_false, h, v, a]
      rfl

theorem blend_between {a : ℕ} (ha : a ≤ 255) {d s m M : Fin 256} (h1 : m ≤ d) (h2 : m ≤ s) (h3 : d ≤ M) (h4 : s ≤ M) :
    m ≤ blend (a * 128) d s ∧ blend (a * 128) d s ≤ M := by
  rw [Fin.le_def] at *
  rw [Fin.le_def]
  have hM := M.isLt
  have e : s.val * (a * 128) + d.val * (255 * 128 - a * 128) = 128 * (s.val * a + d.val * (255 - a)) := by
    rw [← Nat.sub_mul]; ring
  have l : 255 * m.val ≤ s.val * a + d.val * (255 - a) := by
    have := Nat.add_le_add (Nat.mul_le_mul_right a h2) (Nat.mul_le_mul_right (255 - a) h1)
    rw [← Nat.mul_add, Nat.add_sub_cancel' ha] at this
    omega
  have u : s.val * a + d.val * (255 - a) ≤ 255 * M.val := by
    have := Nat.add_le_add (Nat.mul_le_mul_right a h4) (Nat.mul_le_mul_right (255 - a) h3)
    rw [← Nat.mul_add, Nat.add_sub_cancel' ha] at this
    omega
  have k := div255_between l u (by omega)
  simp only [blend, Fin.ofNat_eq_cast, Fin.val_natCast, e]
  rw [Nat.mod_eq_of_lt (by omega)]
  exact k

/-- C91: on an opaque pixel, every colour byte of the result lies between those of the two pixels. -/
theorem C91_over_between (d s : Px) (hd : d.a = 255) :
    (min d.r s.r ≤ (over d s).r ∧ (over d s).r ≤ max d.r s.r) ∧
      (min d.g s.g ≤ (over d s).g ∧ (over d s).g ≤ max d.g s.g) ∧
      (min d.b s.b ≤ (over d s).b ∧ (over d s).b ≤ max d.b s.b) := by
  by_cases hs : s.a = 0
  · simp [over, hs]
  · have hl := s.a.isLt
    have v : (255 : Fin 256).val = 255 := rfl
    have a : s.a.val * 255 + 255 * (255 - s.a.val) = 65025 := by omega
    have c : s.a.val * 255 * 255 * 128 / 65025 = s.a.val * 128 := by omega
    simp only [over, hs, if_false, hd, v, a, c]
    have k : s.a.val ≤ 255 := by omega
    exact ⟨blend_between k (min_le_left _ _) (min_le_right _ _) (le_max_left _ _) (le_max_right _ _),
      blend_between k (min_le_left _ _) (min_le_right _ _) (le_max_left _ _) (le_max_right _ _),
      blend_between k (min_le_left _ _) (min_le_right _ _) (le_max_left _ _) (le_max_right _ _)⟩

/-- Half-transparent red over opaque white. -/
example : over ⟨255, 255, 255, 255⟩ ⟨255, 0, 0, 128⟩ = ⟨255, 127, 127, 255⟩ := by decide

variable {w h : ℕ}

/-- C91: `composed(im, color)` with an opaque colour is opaque everywhere, has that colour where `im` is transparent and the pixels of `im`
where it is opaque. -/
theorem C91_composed (im : Img w h) (color : Px) (hc : color.a = 255) (x : Fin w) (y : Fin h) :
    (composed im color x y).a = 255 ∧ ((im x y).a = 0 → composed im color x y = color) ∧
      ((im x y).a = 255 → composed im color x y = im x y) :=
  ⟨(C91_over _ _).2.2 hc, (C91_over _ _).1, (C91_over _ _).2.1⟩

/-! ### C91: shadows -/

/-- Everything non-zero on a channel lies in the box. -/
def Supp (c : Chan w h) (xl xh yl yh : ℤ) : Prop := ∀ x y, c x y ≠ 0 → InBox xl xh yl yh x y

theorem Supp.mono {c : Chan w h} {xl xh yl yh xl' xh' yl' yh' : ℤ} (hc : Supp c xl xh yl yh) (h1 : xl' ≤ xl) (h2 : xh ≤ xh')
    (h3 : yl' ≤ yl) (h4 : yh ≤ yh') : Supp c xl' xh' yl' yh' := fun x y hxy => by
  obtain ⟨a, b, c, d⟩ := hc x y hxy
  exact ⟨h1.trans a, b.trans h2, h3.trans c, d.trans h4⟩

theorem Supp.lighter {c d : Chan w h} {xl xh yl yh : ℤ} (hc : Supp c xl xh yl yh) (hd : Supp d xl xh yl yh) :
    Supp (Pix.lighter c d) xl xh yl yh := fun x y hxy => by
  by_cases h0 : c x y = 0
  · refine hd x y fun h1 => hxy ?_
    simp [Pix.lighter, h0, h1]
  · exact hc x y h0

theorem Supp.blur {blur : Chan w h → Chan w h} {dim : Fin 256 → Fin 256} (L : Laws blur dim) {c : Chan w h} {xl xh yl yh : ℤ}
    (hc : Supp c xl xh yl yh) : Supp (blur c) (xl - 2) (xh + 2) (yl - 2) (yh + 2) := fun x y hxy => by
  by_contra hn
  refine hxy (L.near c x y fun x' y' hx hy => ?_)
  by_contra h0
  obtain ⟨a, b, c, d⟩ := hc x' y' h0
  rw [abs_le] at hx hy
  exact hn ⟨by omega, by omega, by omega, by omega⟩

theorem Supp.dim {dim : Fin 256 → Fin 256} (h0 : dim 0 = 0) {c : Chan w h} {xl xh yl yh : ℤ} (hc : Supp c xl xh yl yh) :
    Supp (fun x y => dim (c x y)) xl xh yl yh := fun x y hxy => hc x y fun h => hxy (by simp [h, h0])

section
variable [NeZero w] [NeZero h]

theorem moved (w : ℕ) [NeZero w] (x : Fin w) (k : ℕ) {b : ℤ} (hx : ((x - Fin.ofNat w k : Fin w) : ℤ) ≤ b) (hb : b + k < w) :
    (x : ℤ) = ((x - Fin.ofNat w k : Fin w) : ℤ) + k := by
  have hk : k < w := by
    have : (0 : ℤ) ≤ ((x - Fin.ofNat w k : Fin w) : ℤ) := by positivity
    omega
  have e : x = (x - Fin.ofNat w k) + Fin.ofNat w k := by
    haveI : NeZero w := inferInstance
    exact (sub_add_cancel x (Fin.ofNat w k)).symm
  have e2 := congrArg Fin.val e
  rw [Fin.val_add] at e2
  generalize x - Fin.ofNat w k = z at *
  have : (Fin.ofNat w k).val = k := by simp [Nat.mod_eq_of_lt hk]
  rw [this] at e2
  have hz : z.val + k < w := by omega
  rw [Nat.mod_eq_of_lt hz] at e2
  omega

theorem Supp.offset {c : Chan w h} {xl xh yl yh : ℤ} (hc : Supp c xl xh yl yh) (hx : xh + 4 < w) (hy : yh + 3 < h) :
    Supp (Pix.offset c 4 3) (xl + 4) (xh + 4) (yl + 3) (yh + 3) := fun x y hxy => by
  obtain ⟨a, b, c, d⟩ := hc _ _ hxy
  have e1 := moved w x 4 b (by exact_mod_cast hx)
  have e2 := moved h y 3 d (by exact_mod_cast hy)
  push_cast at e1 e2
  exact ⟨by omega, by omega, by omega, by omega⟩

theorem Supp.loop {blur : Chan w h → Chan w h} {dim : Fin 256 → Fin 256} (L : Laws blur dim) {XL XH YL YH : ℤ} (hX : XH < w) (hY : YH < h) :
    ∀ (n : ℕ) (a sa : Chan w h) (xl xh yl yh : ℤ), Supp a xl xh yl yh → Supp sa XL XH YL YH → XL ≤ xl + 2 → xh + 6 * n ≤ XH →
      YL ≤ yl + 1 → yh + 5 * n ≤ YH → Supp (shadowLoop blur dim n (a, sa)).2 XL XH YL YH
  | 0, a, sa, xl, xh, yl, yh, _, hs, _, _, _, _ => hs
  | n + 1, a, sa, xl, xh, yl, yh, ha, hs, h1, h2, h3, h4 => by
    push_cast at h2 h4
    have k := ((ha.offset (by omega) (by omega)).blur L).dim L.dim
    exact Supp.loop L hX hY n _ _ (xl + 4 - 2) (xh + 4 + 2) (yl + 3 - 2) (yh + 3 + 2) k
      (hs.lighter (k.mono (by omega) (by omega) (by omega) (by omega))) (by omega) (by omega) (by omega) (by omega)

/-- C91: if everything on an image lies in a box that is far enough from the right and lower side, its shadow reaches at most 38 columns
further to the right and 32 rows further down, one row up, and not to the left. -/
theorem C91_shadow_reach {blur : Chan w h → Chan w h} {dim : Fin 256 → Fin 256} (L : Laws blur dim) (base : Img w h)
    {xl xh yl yh : ℤ} (hb : Within base xl xh yl yh) (hx : xh + 36 < w) (hy : yh + 30 < h) :
    Within (makeShadow blur dim base) xl (xh + 38) (yl - 1) (yh + 32) := by
  have ha : Supp (fun x y => (base x y).a) xl xh yl yh := hb
  have ho := ha.offset (by omega) (by omega)
  have hl := Supp.loop L (XL := xl + 2) (XH := xh + 36) (YL := yl + 1) (YH := yh + 30) hx hy 6 _ _ xl xh yl yh ha
    (ho.mono (by omega) (by omega) (by omega) (by omega)) (by omega) (by norm_num) (by omega) (by norm_num)
  have hf := (hl.blur L).mono (xl' := xl) (xh' := xh + 38) (yl' := yl - 1) (yh' := yh + 32) (by omega) (by omega) (by omega) (by omega)
  exact hf.lighter (ha.mono le_rfl (by omega) (by omega) (by omega))

/-- C91: the shadow of nothing is nothing. -/
theorem C91_shadow_empty {blur : Chan w h → Chan w h} {dim : Fin 256 → Fin 256} (L : Laws blur dim) (base : Img w h)
    (hb : ∀ x y, (base x y).a = 0) (x : Fin w) (y : Fin h) : (makeShadow blur dim base x y).a = 0 := by
  by_contra hn
  have hw : Within base (-100) (-100) 0 0 := fun x y h => absurd (hb x y) h
  have hy : ∀ a b : ℤ, Within base (-100) (-100) a b := fun _ _ x y h => absurd (hb x y) h
  obtain ⟨-, h2, -, -⟩ := C91_shadow_reach L base (hy (-100) (-100)) (by omega) (by omega) x y hn
  have := x.isLt
  omega

theorem loop_ge {blur : Chan w h → Chan w h} {dim : Fin 256 → Fin 256} : ∀ (n : ℕ) (a sa : Chan w h) (x : Fin w) (y : Fin h),
    sa x y ≤ (shadowLoop blur dim n (a, sa)).2 x y
  | 0, _, _, _, _ => le_rfl
  | n + 1, a, sa, x, y => by
    have k := loop_ge (blur := blur) (dim := dim) n (fun x y => dim (blur (offset a 4 3) x y))
      (lighter sa fun x y => dim (blur (offset a 4 3) x y)) x y
    exact (le_max_left _ _).trans k

/-- C91: the shadow has one colour, of the largest red, green and blue on the image, and is nowhere more transparent than the image. -/
theorem C91_shadow_color (blur : Chan w h → Chan w h) (dim : Fin 256 → Fin 256) (base : Img w h) (x : Fin w) (y : Fin h) :
    (base x y).a ≤ (makeShadow blur dim base x y).a ∧
      ((∀ x' y', (base x' y').r ≤ (makeShadow blur dim base x y).r) ∧ ∃ x' y', (base x' y').r = (makeShadow blur dim base x y).r) ∧
      ((∀ x' y', (base x' y').g ≤ (makeShadow blur dim base x y).g) ∧ ∃ x' y', (base x' y').g = (makeShadow blur dim base x y).g) ∧
      ((∀ x' y', (base x' y').b ≤ (makeShadow blur dim base x y).b) ∧ ∃ x' y', (base x' y').b = (makeShadow blur dim base x y).b) := by
  have key : ∀ c : Chan w h, (∀ x' y', c x' y' ≤ extremum c) ∧ ∃ x' y', c x' y' = extremum c := by
    intro c
    refine ⟨fun x' y' => Finset.le_sup (f := fun p : Fin w × Fin h => c p.1 p.2) (Finset.mem_univ (x', y')), ?_⟩
    obtain ⟨p, -, hp⟩ := Finset.exists_mem_eq_sup (Finset.univ : Finset (Fin w × Fin h)) ⟨(x, y), Finset.mem_univ _⟩
      (fun p => c p.1 p.2)
    exact ⟨p.1, p.2, hp.symm⟩
  exact ⟨le_max_right _ _, key _, key _, key _⟩

/-- C91: a drawing of one colour on a transparent black image has a shadow of that colour. -/
theorem C91_shadow_plain (blur : Chan w h → Chan w h) (dim : Fin 256 → Fin 256) (base : Img w h) (r g b : Fin 256)
    (hb : ∀ x y, base x y = ⟨0, 0, 0, 0⟩ ∨ ∃ a, base x y = ⟨r, g, b, a⟩) {x0 : Fin w} {y0 : Fin h} {a0 : Fin 256}
    (h0 : base x0 y0 = ⟨r, g, b, a0⟩) (x : Fin w) (y : Fin h) :
    ∃ a, makeShadow blur dim base x y = ⟨r, g, b, a⟩ := by
  obtain ⟨-, ⟨r1, xr, yr, r2⟩, ⟨g1, xg, yg, g2⟩, ⟨b1, xb, yb, b2⟩⟩ := C91_shadow_color blur dim base x y
  have l1 := r1 x0 y0
  have l2 := g1 x0 y0
  have l3 := b1 x0 y0
  rw [h0] at l1 l2 l3
  refine ⟨(makeShadow blur dim base x y).a, ?_⟩
  ext1
  · rcases hb xr yr with e | ⟨a, e⟩ <;> rw [e] at r2
    · rw [← r2] at l1 ⊢; exact le_antisymm (Fin.zero_le _) l1
    · exact r2.symm
  · rcases hb xg yg with e | ⟨a, e⟩ <;> rw [e] at g2
    · rw [← g2] at l2 ⊢; exact le_antisymm (Fin.zero_le _) l2
    · exact g2.symm
  · rcases hb xb yb with e | ⟨a, e⟩ <;> rw [e] at b2
    · rw [← b2] at l3 ⊢; exact le_antisymm (Fin.zero_le _) l3
    · exact b2.symm
  · rfl

/-- C91 (a shadow that leaves the image on one side comes in on the other): what is four columns before the left side, counted through the
right side, shades the left side, and likewise above the upper side. -/
theorem C91_shadow_wraps {blur : Chan w h → Chan w h} {dim : Fin 256 → Fin 256} (L : Laws blur dim) (base : Img w h) (x : Fin w) (y : Fin h)
    (hxy : (x : ℕ) < 2 ∨ (y : ℕ) < 2) :
    (base (x - Fin.ofNat w 4) (y - Fin.ofNat h 3)).a ≤ (makeShadow blur dim base x y).a := by
  refine le_trans ?_ (le_max_left _ _)
  rw [L.border _ x y (by rcases hxy with h | h <;> simp [h])]
  exact loop_ge 6 _ (offset (fun x y => (base x y).a) 4 3) x y

/-- C91 (false): the shadow does not always fall to the right of and below what casts it. With one opaque pixel, at column 17, row 5, of an
image of 20 by 20 pixels, the shadow is opaque at column 1, row 8. -/
theorem C91_shadow_counterexample {blur : Chan 20 20 → Chan 20 20} {dim : Fin 256 → Fin 256} (L : Laws blur dim) :
    ∃ base : Img 20 20, Within base 17 17 5 5 ∧ (makeShadow blur dim base 1 8).a = 255 := by
  refine ⟨fun x y => if x = 17 ∧ y = 5 then ⟨0, 0, 0, 255⟩ else ⟨0, 0, 0, 0⟩, ?_, ?_⟩
  · intro x y hxy
    by_cases hc : x = 17 ∧ y = 5
    · obtain ⟨rfl, rfl⟩ := hc
      exact ⟨by decide, by decide, by decide, by decide⟩
    · simp [hc] at hxy
  · have := C91_shadow_wraps L (fun x y => if x = 17 ∧ y = 5 then ⟨0, 0, 0, 255⟩ else ⟨0, 0, 0, 0⟩ : Img 20 20) 1 8 (by simp)
    have e : ((1 : Fin 20) - Fin.ofNat 20 4 = 17 ∧ (8 : Fin 20) - Fin.ofNat 20 3 = 5) := by decide
    rw [if_pos e] at this
    exact le_antisymm (Fin.le_last _) this

/-! ### C91: the image of a context -/

/-- C91: the image of a context after any sequence of drawings and shadows. Where the layer is opaque, it shows the layer, whatever the
shadow; where layer and shadow are transparent, the background; where only the layer is, the shadow over the background; and it is
opaque where the background is. -/
theorem C91_image {C : Type} (blur : Chan w h → Chan w h) (dim : Fin 256 → Fin 256) (bg : Img w h) (us : List (Use (Img w h) C)) :
    let mk := makeShadow blur dim
    ∃ im, (us.foldl (DC.use blank mk) (DC.new bg blank)).image composite = some im ∧ ∀ x y,
      ((layerOf us blank x y).a = 255 → im x y = layerOf us blank x y) ∧
      ((layerOf us blank x y).a = 0 → (∀ sh, shadowOf blank mk us none = some sh → (sh x y).a = 0) → im x y = bg x y) ∧
      ((layerOf us blank x y).a = 0 → ∀ sh, shadowOf blank mk us none = some sh → im x y = over (bg x y) (sh x y)) ∧
      ((bg x y).a = 255 → (im x y).a = 255) := by
  intro mk
  refine ⟨_, C63_image composite blank bg mk us, fun x y => ?_⟩
  cases hs : shadowOf blank mk us none with
  | none =>
    refine ⟨(C91_over _ _).2.1, fun hl _ => (C91_over _ _).1 hl, fun _ _ h => (by simp at h), fun hb => (C91_over _ _).2.2 hb⟩
  | some sh =>
    refine ⟨(C91_over _ _).2.1, fun hl h => ?_, fun hl sh' h => ?_, fun hb => (C91_over _ _).2.2 ((C91_over _ _).2.2 hb)⟩
    · exact ((C91_over _ _).1 hl).trans ((C91_over _ _).1 (h sh rfl))
    · cases h
      exact (C91_over _ _).1 hl

/-- C91: drawing on a context, whatever and however often, leaves the image given as background alone: a context made later on the same
image shows it as it was. -/
theorem C91_background {C : Type} (mk : Img w h → Img w h) (bg : Img w h) (us : List (Use (Img w h) C)) :
    (us.foldl (DC.use blank mk) (DC.new bg blank)).imgs[(us.foldl (DC.use blank mk) (DC.new bg blank)).background]? = some bg :=
  (use_ok blank mk us (DC.new bg blank) bg blank (new_wf bg blank) rfl rfl rfl rfl).2.1

/-- C91: a model drawn with its shadow on a background, in either order. If what the model paints lies in a box far enough from the right
and lower side, the background shows outside the box grown by the reach of the shadow. -/
theorem C91_drawn {C : Type} {blur : Chan w h → Chan w h} {dim : Fin 256 → Fin 256} (L : Laws blur dim) (bg : Img w h)
    (steps : List (Step (Img w h) C)) (hf : failure steps = none) (color : C) {xl xh yl yh : ℤ}
    (h1 : Within (painted none steps blank) xl xh yl yh) (h2 : Within (painted (some color) steps blank) xl xh yl yh)
    (hx : xh + 36 < w) (hy : yh + 30 < h) :
    ∃ im, (([.shadow steps color, .draw steps] : List (Use (Img w h) C)).foldl (DC.use blank (makeShadow blur dim))
          (DC.new bg blank)).image composite = some im ∧
      (([.draw steps, .shadow steps color] : List (Use (Img w h) C)).foldl (DC.use blank (makeShadow blur dim))
          (DC.new bg blank)).image composite = some im ∧
      ∀ x y, ¬ InBox xl (xh + 38) (yl - 1) (yh + 32) x y → im x y = bg x y := by
  obtain ⟨im, e, k⟩ := C91_image blur dim bg ([.shadow steps color, .draw steps] : List (Use (Img w h) C))
  refine ⟨im, e, ?_, fun x y hxy => (k x y).2.1 ?_ ?_⟩
  · rw [← e, C63_image, C63_image]
    rfl
  · by_contra hn
    obtain ⟨a, b, c, d⟩ := h1 x y hn
    exact hxy ⟨a, by omega, by omega, by omega⟩
  · intro sh hsh
    have : sh = makeShadow blur dim (painted (some color) steps blank) := by
      simp only [shadowOf, hf, if_true, Option.getD_none, Option.some.injEq] at hsh
      exact hsh.symm
    rw [this]
    by_contra hn
    exact hxy (C91_shadow_reach L _ h2 hx hy x y hn)

/-! ### A blur and a brightness as PIL has them -/

/-- PIL `ImageFilter.BLUR`: the sixteen bytes on the rim of the 5 by 5 square, averaged and rounded; the two outermost rows and columns are
copied. -/
def pilBlur (c : Chan w h) : Chan w h := fun x y =>
  if (x : ℕ) < 2 ∨ w ≤ (x : ℕ) + 2 ∨ (y : ℕ) < 2 ∨ h ≤ (y : ℕ) + 2 then c x y
  else Fin.ofNat 256 ((∑ i ∈ Finset.range 5, ∑ j ∈ Finset.range 5,
    if i = 0 ∨ i = 4 ∨ j = 0 ∨ j = 4 then (c (Fin.ofNat w (x + i - 2)) (Fin.ofNat h (y + j - 2))).val else 0) / 16)

/-- Non-vacuity: the laws hold of PIL's blur and of taking 95 hundredths. -/
theorem pilBlur_laws : Laws (pilBlur : Chan w h → Chan w h) (fun v => Fin.ofNat 256 (v.val * 95 / 100)) := by
  refine ⟨fun c x y h0 => ?_, fun c x y hb => if_pos hb, by simp⟩
  unfold pilBlur
  split
  · exact h0 x y (by simp) (by simp)
  · rename_i hn
    push Not at hn
    have : (∑ i ∈ Finset.range 5, ∑ j ∈ Finset.range 5,
        if i = 0 ∨ i = 4 ∨ j = 0 ∨ j = 4 then (c (Fin.ofNat w (x + i - 2)) (Fin.ofNat h (y + j - 2))).val else 0) = 0 := by
      refine Finset.sum_eq_zero fun i hi => Finset.sum_eq_zero fun j hj => ?_
      rw [Finset.mem_range] at hi hj
      split
      · rw [h0]
        · rfl
        · have : (Fin.ofNat w (x + i - 2)).val = x + i - 2 := by
            simp only [Fin.ofNat_eq_cast, Fin.val_natCast]
            exact Nat.mod_eq_of_lt (by omega)
          rw [this, abs_le]; omega
        · have : (Fin.ofNat h (y + j - 2)).val = y + j - 2 := by
            simp only [Fin.ofNat_eq_cast, Fin.val_natCast]
            exact Nat.mod_eq_of_lt (by omega)
          rw [this, abs_le]; omega
      · rfl
    rw [this]
    rfl

end

/-- A pixel painted at column 10, row 10 of an image of 100 by 100 pixels, with its shadow: the reach of the shadow ends at column 48 and
row 42, and the painted pixel shows its own colour. -/
example (bg : Img 100 100) :
    let f : Option Px → Img 100 100 → Img 100 100 := fun c im x y =>
      if x = 10 ∧ y = 10 then c.getD ⟨255, 0, 0, 255⟩ else im x y
    ∃ im, (([.shadow [.paint f] ⟨140, 140, 170, 255⟩, .draw [.paint f]] : List (Use (Img 100 100) Px)).foldl
        (DC.use blank (makeShadow pilBlur fun v => Fin.ofNat 256 (v.val * 95 / 100))) (DC.new bg blank)).image composite = some im ∧
      ∀ x y, ¬ InBox 10 48 9 42 x y → im x y = bg x y := by
  intro f
  have hw : ∀ c, Within (painted c [.paint f] blank : Img 100 100) 10 10 10 10 := by
    intro c x y hxy
    by_cases hc : x = 10 ∧ y = 10
    · obtain ⟨rfl, rfl⟩ := hc
      exact ⟨by decide, by decide, by decide, by decide⟩
    · simp [painted, f, hc, blank] at hxy
  obtain ⟨im, e, -, k⟩ := C91_drawn pilBlur_laws bg [.paint f] rfl (⟨140, 140, 170, 255⟩ : Px) (hw _) (hw _) (by norm_num) (by norm_num)
  exact ⟨im, e, fun x y hxy => k x y (by norm_num; exact hxy)⟩

end X7.Pix
