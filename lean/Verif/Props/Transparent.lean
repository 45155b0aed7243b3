import Mathlib.Data.List.Nodup
import Mathlib.Tactic.Linarith
import Verif.Spec.Transparent

/-!
C92: converting images to palettes with transparency.
-/

namespace X7.Trans
open Pix

variable {w h : ℕ} [NeZero w] [NeZero h]

/-- C92: whatever image is given and however PIL chooses the palette, exactly the pixels with the entry of the upper left pixel are
transparent afterwards, that pixel among them; the others show the colour of their entry. -/
theorem C92_corner (adaptive : ℕ → (Fin w → Fin h → Rgb) → PImg w h) (im : Img w h) (colors : ℕ) :
    ∃ p, rgbaToTransparent adaptive (.rgba im) colors = .ok p ∧ p.px = (adaptive (colors - 1) (fun x y => ((im x y).r, (im x y).g, (im x y).b))).px ∧
      p.seen 0 0 = none ∧
      ∀ x y, (p.seen x y = none ↔ p.px x y = p.px 0 0) ∧
        (p.px x y ≠ p.px 0 0 → p.seen x y =
          some ((adaptive (colors - 1) (fun x y => ((im x y).r, (im x y).g, (im x y).b))).palette.getD (p.px x y) (0, 0, 0))) := by
  refine ⟨_, rfl, rfl, by simp [PImg.seen, cornerTransparent], fun x y => ⟨?_, fun hn => ?_⟩⟩
  · simp only [PImg.seen, cornerTransparent, Option.some.injEq]
    constructor
    · intro hs
      by_contra hn
      rw [if_neg fun e => hn e.symm] at hs
      simp at hs
    · intro e
      rw [if_pos e.symm]
  · simp only [cornerTransparent] at hn
    simp only [PImg.seen, cornerTransparent, Option.some.injEq]
    exact if_neg (Ne.symm hn)

/-- C92: alpha makes no difference: images of the same red, green and blue give the same result. -/
theorem C92_alpha_ignored (adaptive : ℕ → (Fin w → Fin h → Rgb) → PImg w h) (im im' : Img w h) (colors : ℕ)
    (hc : ∀ x y, (im x y).r = (im' x y).r ∧ (im x y).g = (im' x y).g ∧ (im x y).b = (im' x y).b) :
    rgbaToTransparent adaptive (.rgba im) colors = rgbaToTransparent adaptive (.rgba im') colors := by
  have : toRgb im = toRgb im' := by
    funext x y
    simp [toRgb, hc x y]
  simp [rgbaToTransparent, this]

/-- C92 (false): transparent is not what was transparent. If PIL gives equal colours equal entries, an opaque image of one colour is
invisible afterwards; if it gives black and white different entries, a transparent white pixel on an opaque black image is seen. -/
theorem C92_alpha_counterexample (adaptive : ℕ → (Fin w → Fin h → Rgb) → PImg w h)
    (heq : ∀ n im x y x' y', im x y = im x' y' → (adaptive n im).px x y = (adaptive n im).px x' y') (colors : ℕ) :
    (∀ (r g b : Fin 256), ∃ p, rgbaToTransparent adaptive (.rgba fun _ _ => ⟨r, g, b, 255⟩) colors = .ok p ∧ ∀ x y, p.seen x y = none) ∧
      ∀ x0 : Fin w, x0 ≠ 0 →
        let im : Img w h := fun x _ => if x = x0 then ⟨255, 255, 255, 0⟩ else ⟨0, 0, 0, 255⟩
        (adaptive (colors - 1) (toRgb im)).px x0 0 ≠ (adaptive (colors - 1) (toRgb im)).px 0 0 →
        ∃ p, rgbaToTransparent adaptive (.rgba im) colors = .ok p ∧ (im x0 0).a = 0 ∧ p.seen x0 0 ≠ none ∧ (im 0 0).a = 255 ∧ p.seen 0 0 = none := by
  constructor
  · intro r g b
    obtain ⟨p, e, ep, -, k⟩ := C92_corner adaptive (fun _ _ => ⟨r, g, b, 255⟩ : Img w h) colors
    refine ⟨p, e, fun x y => (k x y).1.2 ?_⟩
    rw [ep]
    exact heq _ _ _ _ _ _ rfl
  · intro x0 hx im hne
    obtain ⟨p, e, ep, k0, k⟩ := C92_corner adaptive im colors
    refine ⟨p, e, by simp [im], ?_, ?_, k0⟩
    · rw [ne_eq, (k x0 0).1, ep]
      exact hne
    · simp [im, Ne.symm hx]

/-- C92: only images of the right mode are accepted: RGBA by `rgba_to_transparent`, RGB by `rgb_to_transparent`. -/
theorem C92_mode (adaptive : ℕ → (Fin w → Fin h → Rgb) → PImg w h) (quantize : List Rgb → (Fin w → Fin h → Rgb) → PImg w h) (colors : ℕ)
    (pal : Option (List Rgb)) (im : AnyImg w h) :
    (rgbaToTransparent adaptive im colors = .error .assertion ↔ ∃ a, im = .rgb a) ∧
      (rgbToTransparent adaptive quantize im colors pal = .error .assertion ↔ ∃ a, im = .rgba a) := by
  cases im with
  | rgb a => exact ⟨⟨fun _ => ⟨a, rfl⟩, fun _ => rfl⟩, ⟨fun e => by cases pal <;> exact absurd e nofun, nofun⟩⟩
  | rgba a => exact ⟨⟨nofun, nofun⟩, ⟨fun _ => ⟨a, rfl⟩, fun _ => rfl⟩⟩

/-- C92: with a palette, `rgb_to_transparent` gives PIL's quantised image with the entry of the upper left pixel transparent. -/
theorem C92_with_palette (adaptive : ℕ → (Fin w → Fin h → Rgb) → PImg w h) (quantize : List Rgb → (Fin w → Fin h → Rgb) → PImg w h)
    (colors : ℕ) (pal : List Rgb) (im : Fin w → Fin h → Rgb) :
    ∃ p, rgbToTransparent adaptive quantize (.rgb im) colors (some pal) = .ok p ∧ p.seen 0 0 = none ∧
      ∀ x y, p.seen x y = if (quantize pal im).px x y = (quantize pal im).px 0 0 then none
        else some ((quantize pal im).palette.getD ((quantize pal im).px x y) (0, 0, 0)) := by
  refine ⟨_, rfl, by simp [PImg.seen, cornerTransparent], fun x y => ?_⟩
  simp only [PImg.seen, cornerTransparent, Option.some.injEq, eq_comm]

/-- C92: without a palette, `rgb_to_transparent` keeps only two kinds of pixels: those of the first entry of PIL's palette become white, all
others black, and the kind of the upper left pixel is transparent: nothing else of the colours survives. -/
theorem C92_two_colors (adaptive : ℕ → (Fin w → Fin h → Rgb) → PImg w h) (quantize : List Rgb → (Fin w → Fin h → Rgb) → PImg w h)
    (colors : ℕ) (im : Fin w → Fin h → Rgb) :
    ∃ p, rgbToTransparent adaptive quantize (.rgb im) colors none = .ok p ∧
      ∀ x y, p.seen x y =
        if ((adaptive colors im).px x y = 0 ↔ (adaptive colors im).px 0 0 = 0) then none
        else if (adaptive colors im).px x y = 0 then some (255, 255, 255) else some (0, 0, 0) := by
  refine ⟨_, rfl, fun x y => ?_⟩
  simp only [PImg.seen, cornerTransparent, remap, Option.some.injEq]
  have hl : ∀ k, (((255, 255, 255) : Rgb) :: List.replicate k ((255, 255, 255) : Rgb))[0]?.getD (0, 0, 0) = (255, 255, 255) := fun _ => rfl
  rw [show List.replicate 255 ((255, 255, 255) : Rgb) = (255, 255, 255) :: List.replicate 254 (255, 255, 255) from List.replicate_succ]
  have k := hl 254
  generalize ((255, 255, 255) : Rgb) :: List.replicate 254 ((255, 255, 255) : Rgb) = l at *
  by_cases h1 : (adaptive colors im).px x y = 0 <;> by_cases h2 : (adaptive colors im).px 0 0 = 0 <;> simp [h1, h2, k]

/-! ### C92: the palette image -/

omit [NeZero w] [NeZero h]

/-- The colour `palette_image` gives to entry `i`, from 2 on. -/
def ramp (i : ℕ) : Rgb := (i + 1, (i + 129) % 256, (499 - i) % 256)

theorem palette_loop : ∀ n, n ≤ 253 →
    (List.range' 3 n).foldl paletteStep [(0, 0, 0), (255, 255, 255)] =
      [(0, 0, 0), (255, 255, 255)] ++ (List.range' 2 n).map ramp := by
  intro n
  induction n with
  | zero => intro _; rfl
  | succ n ih =>
    intro hn
    rw [List.range'_concat, List.foldl_append, ih (by omega), List.range'_concat, List.map_append]
    simp only [List.foldl_cons, List.foldl_nil, paletteStep, getcolor]
    rw [if_pos (by simp; omega), if_neg, List.append_assoc]
    · congr 2
      simp only [ramp, List.map_cons, List.map_nil, List.cons.injEq, and_true, Prod.mk.injEq, Nat.one_mul]
      omega
    · simp only [List.cons_append, List.nil_append, List.mem_cons, List.mem_map, List.mem_range'_1, Prod.mk.injEq, ramp, not_or]
      refine ⟨by omega, by omega, ?_⟩
      rintro ⟨a, ha, e, -⟩
      omega

theorem fold_pair {α β γ : Type} (f : α → γ → α) (g : β → γ → β) : ∀ (l : List γ) (a : α) (b : β),
    l.foldl (fun s c => (f s.1 c, g s.2 c)) (a, b) = (l.foldl f a, l.foldl g b)
  | [], _, _ => rfl
  | c :: l, a, b => by simp only [List.foldl_cons]; exact fold_pair f g l _ _

theorem stripes : ∀ n, n ≤ 256 → ∀ x y, (List.range n).foldl pasteStripe (fun _ _ => 0) x y = if (x : ℕ) < 4 * n then (x : ℕ) / 4 else 0 := by
  intro n
  induction n with
  | zero => intro _ x y; simp
  | succ n ih =>
    intro hn x y
    rw [List.range_succ, List.foldl_append]
    simp only [List.foldl_cons, List.foldl_nil, pasteStripe, ih (by omega)]
    split_ifs <;> omega

/-- C92: the palette image is 256 stripes of four columns, stripe `c` of entry `c`. Its palette has 255 different colours: black, white, and
from entry 2 on a ramp. -/
theorem C92_palette_image :
    (∀ x y, (paletteImage false).px x y = (x : ℕ) / 4) ∧
      (paletteImage false).palette = [(0, 0, 0), (255, 255, 255)] ++ (List.range' 2 253).map ramp ∧
      (paletteImage false).palette.length = 255 ∧ (paletteImage false).palette.Nodup ∧
      (∀ c ∈ (paletteImage false).palette, c.1 < 256 ∧ c.2.1 < 256 ∧ c.2.2 < 256) ∧ (paletteImage false).transparency = none := by
  have e : paletteImage false = ⟨(List.range 256).foldl pasteStripe (fun _ _ => 0),
      (List.range 256).foldl paletteStep [(0, 0, 0), (255, 255, 255)], none⟩ := by
    have g : getcolor (getcolor [] (0, 0, 0)) (255, 255, 255) = [(0, 0, 0), (255, 255, 255)] := by decide
    unfold paletteImage
    generalize List.range 256 = l
    simp only [Bool.false_eq_true, if_false, fold_pair, g]
  have hp : (paletteImage false).palette = [(0, 0, 0), (255, 255, 255)] ++ (List.range' 2 253).map ramp := by
    have hr : ∀ n, List.range (3 + n) = [0, 1, 2] ++ List.range' 3 n := by
      intro n
      rw [List.range_eq_range', ← List.range'_append_1]
      congr 1
    have hr := hr 253
    rw [show 3 + 253 = 256 from rfl] at hr
    rw [e, ← palette_loop 253 le_rfl]
    generalize List.range' 3 253 = l at *
    generalize List.range 256 = l' at *
    show l'.foldl paletteStep _ = _
    have g : [0, 1, 2].foldl paletteStep [(0, 0, 0), (255, 255, 255)] = [(0, 0, 0), (255, 255, 255)] := by decide
    rw [hr, List.foldl_append, g]
  refine ⟨fun x y => ?_, hp, by simp [hp], ?_, ?_, by rw [e]⟩
  · have k := stripes 256 le_rfl x y
    rw [if_pos (by have := x.isLt; omega)] at k
    rw [e, ← k]
  · rw [hp]
    refine List.nodup_append.2 ⟨by decide, ?_, ?_⟩
    · refine List.Nodup.map_on ?_ List.nodup_range'
      intro a _ b _ hab
      simp only [ramp, Prod.mk.injEq] at hab
      omega
    · rintro a ha b hb rfl
      simp only [List.mem_map, List.mem_range'_1, ramp] at hb
      obtain ⟨i, hi, rfl⟩ := hb
      simp only [List.mem_cons, List.not_mem_nil, or_false, Prod.mk.injEq] at ha
      omega
  · rw [hp]
    intro c hc
    simp only [List.mem_append, List.mem_cons, List.not_mem_nil, or_false, List.mem_map, List.mem_range'_1, ramp] at hc
    rcases hc with (rfl | rfl) | ⟨i, hi, rfl⟩
    · simp
    · simp
    · exact ⟨by dsimp only; omega, Nat.mod_lt _ (by norm_num), Nat.mod_lt _ (by norm_num)⟩

/-- C92 (false): the stripes of the palette image do not all differ: the last entry never gets a colour, so the last stripe is black as the
first one is. -/
theorem C92_palette_counterexample (y : Fin 64) :
    (paletteImage false).seen 1023 y = (paletteImage false).seen 0 y ∧ (paletteImage false).px 1023 y ≠ (paletteImage false).px 0 y := by
  obtain ⟨hx, hp, hl, -, -, ht⟩ := C92_palette_image
  have e1 : (paletteImage false).px 1023 y = 255 := by rw [hx]; rfl
  have e2 : (paletteImage false).px 0 y = 0 := by rw [hx]; rfl
  refine ⟨?_, by rw [e1, e2]; decide⟩
  simp only [PImg.seen, ht, e1, e2]
  have g1 : (paletteImage false).palette.getD 255 (0, 0, 0) = (0, 0, 0) := by
    rw [List.getD_eq_getElem?_getD, List.getElem?_eq_none (by rw [hl])]
    rfl
  have g2 : (paletteImage false).palette.getD 0 (0, 0, 0) = (0, 0, 0) := by
    rw [hp]
    rfl
  rw [g1, g2]
  simp

/-- C92: asked for an empty image, it is all of entry 0 and the palette is black and white. -/
theorem C92_palette_empty : (∀ x y, (paletteImage true).px x y = 0) ∧ (paletteImage true).palette = [(0, 0, 0), (255, 255, 255)] :=
  ⟨fun _ _ => rfl, rfl⟩

/-- Non-vacuity: a conversion that gives equal colours equal entries; a transparent white column on black is seen. -/
example : ∃ p, rgbaToTransparent (w := 3) (h := 2) (fun _ im => ⟨fun x y => if im x y = (0, 0, 0) then 1 else 0, [(255, 255, 255), (0, 0, 0)], none⟩)
    (.rgba fun x _ => if x = 2 then ⟨255, 255, 255, 0⟩ else ⟨0, 0, 0, 255⟩) 256 = .ok p ∧ p.seen 2 0 = some (255, 255, 255) ∧ p.seen 0 0 = none :=
  ⟨_, rfl, by decide, by decide⟩

end X7.Trans
