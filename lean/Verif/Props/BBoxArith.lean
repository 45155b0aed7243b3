import Mathlib.Tactic.Positivity
import Verif.Lemmas.Mat3
import Verif.Props.BBox

/-!
C08 (expand), C13 (area), C15 (expand) and C16 (transformed): the arithmetic part of `BBox`.
-/

namespace X7.BBox
variable {K : Type*} [Field K] [LinearOrder K] [IsStrictOrderedRing K]

/-- The amount `expand` really uses in one dimension never inverts the box. -/
theorem expand_ok (l h e : K) : l - max e (-(h - l) / 2) ≤ h + max e (-(h - l) / 2) := by
  have := le_max_right e (-(h - l) / 2)
  linarith

theorem expand_box (xl yl xh yh ex : K) (ey : Option K) :
    (BBox.box xl yl xh yh).expand ex ey = .ok (.box
      (xl - max ex (-(xh - xl) / 2)) (yl - max (ey.getD ex) (-(yh - yl) / 2))
      (xh + max ex (-(xh - xl) / 2)) (yh + max (ey.getD ex) (-(yh - yl) / 2))) := by
  cases ey <;> simp only [expand, width, height, Option.getD] <;>
    rw [mk'_of_le (expand_ok _ _ _) (expand_ok _ _ _)]

/-- C08: `expand` also returns a normalised box. -/
theorem C08_expand_norm (b b' : BBox K) (ex : K) (ey : Option K) (h : b.expand ex ey = .ok b') : b'.Norm := by
  cases b with
  | none => cases h
  | box xl yl xh yh =>
    rw [expand_box] at h
    cases h
    exact ⟨expand_ok _ _ _, expand_ok _ _ _⟩

/-- Boxes obtainable when `expand` is used as well (see `Reach`). -/
inductive ReachK : BBox K → Prop
  | init (xl yl xh yh : Option (BArg K)) (b) : init xl yl xh yh = .ok b → ReachK b
  | copy (b) : ReachK b → ReachK b.copy
  | grow (b p) : ReachK b → ReachK (b.grow p)
  | add (a b) : ReachK a → ReachK b → ReachK (a.add b)
  | inter (a b) : ReachK a → ReachK b → ReachK (a.inter b)
  | sort (a b) : ReachK a → a.sort = .ok b → ReachK b
  | round (a b) (f : K → K) : ReachK a → a.round f = .ok b → ReachK b
  | expand (a b) (ex : K) (ey : Option K) : ReachK a → a.expand ex ey = .ok b → ReachK b
  | transformed (a b) (f : Pt K → Pt K) : ReachK a → a.transformed f = .ok b → ReachK b

/-- C08: every box obtained by the constructor and any operations including `expand` is none or in order. -/
theorem C08_reach_norm_expand (b : BBox K) (h : ReachK b) : b.Norm := by
  induction h with
  | init xl yl xh yh b h => exact (C08_init_norm xl yl xh yh b h).1
  | copy b _ _ => exact norm_copy _
  | grow b p _ ih => exact norm_grow ih p
  | add a b _ _ _ _ => exact norm_add _ _
  | inter a b _ _ _ _ => exact norm_inter _ _
  | sort a b _ h _ =>
    cases a <;> cases h
    exact norm_mk' _ _ _ _
  | round a b f _ h _ =>
    cases a <;> cases h
    exact norm_mk' _ _ _ _
  | expand a b ex ey _ h _ => exact C08_expand_norm a b ex ey h
  | transformed a b f _ h _ => exact norm_transformed h

example : ReachK (.box (1 : ℚ) 1 1 1) :=
  .expand (.box 0 0 2 2) _ (-5) Option.none
    (.init (some (.num 2)) (some (.num 0)) (some (.num 0)) (some (.num 2)) _ (by decide))
    (by rw [expand_box]; norm_num)

/-- C13: with coordinates, zero area is `is_empty`; so by `C13_touches` the intersection of touching boxes has
`area() == 0`, and by `C13_overlaps_iff_fat` that of overlapping boxes has `area() > 0`. -/
theorem C13_area (b : BBox K) (hb : b.Norm) :
    (b.area = 0 ↔ b.isEmpty = true) ∧ (0 < b.area ↔ b.Fat) ∧ 0 ≤ b.area := by
  cases b with
  | none => simp [area, isEmpty, Fat]
  | box xl yl xh yh =>
    simp only [Norm] at hb
    obtain ⟨h1, h2⟩ := hb
    simp only [area, isEmpty, Fat, Bool.or_eq_true, decide_eq_true_eq]
    refine ⟨?_, ?_, mul_nonneg (by linarith) (by linarith)⟩
    · rw [mul_eq_zero, sub_eq_zero, sub_eq_zero, eq_comm (a := xh), eq_comm (a := yh)]
    · constructor
      · intro h
        have hx : xh - xl ≠ 0 := fun e => by simp [e] at h
        have hy : yh - yl ≠ 0 := fun e => by simp [e] at h
        exact ⟨lt_of_le_of_ne h1 (fun e => hx (by rw [e, sub_self])),
          lt_of_le_of_ne h2 (fun e => hy (by rw [e, sub_self]))⟩
      · rintro ⟨h1, h2⟩
        exact mul_pos (by linarith) (by linarith)

theorem C13_touches_area (a b : BBox K) (ha : a.Norm) (hb : b.Norm) (h : a.touches b = true) :
    (a.inter b).area = 0 :=
  (C13_area _ (norm_inter a b)).1.2 (C13_touches a b ha hb h).2.2

/-- C13: boxes of positive area overlap exactly if their intersection has positive area. -/
theorem C13_overlaps_area (a b : BBox K) (ha : a.Fat) (hb : b.Fat) :
    a.overlaps b = .ok true ↔ 0 < (a.inter b).area := by
  obtain ⟨r, hr, h⟩ := C13_overlaps_iff_fat a b ha hb
  rw [(C13_area _ (norm_inter a b)).2.1, ← h, hr]
  exact ⟨fun h => by injection h, fun h => by rw [h]⟩

/-- C15: `expand` succeeds exactly on boxes with coordinates; it keeps the centre and gives
width `max 0 (w + 2 dx)` and height `max 0 (h + 2 dy)` (`dy` defaults to `dx`). -/
theorem C15_expand_size (b : BBox K) (hb : b.Norm) (dx : K) (dy : Option K) :
    (b = .none → b.expand dx dy = .error .type) ∧
    (b ≠ .none → ∃ b', b.expand dx dy = .ok b' ∧ b' ≠ .none ∧ b'.center = b.center ∧
      b'.width = max 0 (b.width + 2 * dx) ∧ b'.height = max 0 (b.height + 2 * dy.getD dx)) := by
  constructor
  · rintro rfl; rfl
  · intro h
    cases b with
    | none => exact absurd rfl h
    | box xl yl xh yh =>
      have key : ∀ l h e : K, (h + max e (-(h - l) / 2)) - (l - max e (-(h - l) / 2)) = max 0 (h - l + 2 * e) := by
        intro l h e
        rcases le_total e (-(h - l) / 2) with g | g
        · rw [max_eq_right g, max_eq_left (by linarith)]; ring
        · rw [max_eq_left g, max_eq_right (by linarith)]; ring
      refine ⟨_, expand_box _ _ _ _ _ _, by simp, ?_, key _ _ _, key _ _ _⟩
      simp only [center, Except.ok.injEq, Pt.mk.injEq]
      constructor <;> ring

/-- C15: non-negative amounts give a box containing the original, non-positive amounts one contained in it. -/
theorem C15_expand_mono (b b' : BBox K) (hb : b.Norm) (dx dy : K) (h : b.expand dx (some dy) = .ok b') :
    (0 ≤ dx → 0 ≤ dy → Region b ⊆ Region b') ∧ (dx ≤ 0 → dy ≤ 0 → Region b' ⊆ Region b) := by
  cases b with
  | none => cases h
  | box xl yl xh yh =>
    simp only [Norm] at hb
    rw [expand_box] at h
    cases h
    simp only [Option.getD_some]
    constructor
    · intro h1 h2
      rw [region_subset_box hb.1 hb.2]
      have := le_max_left dx (-(xh - xl) / 2)
      have := le_max_left dy (-(yh - yl) / 2)
      refine ⟨?_, ?_, ?_, ?_⟩ <;> linarith
    · intro h1 h2
      rw [region_subset_box (expand_ok _ _ _) (expand_ok _ _ _)]
      have : max dx (-(xh - xl) / 2) ≤ 0 := max_le h1 (by linarith)
      have : max dy (-(yh - yl) / 2) ≤ 0 := max_le h2 (by linarith)
      refine ⟨?_, ?_, ?_, ?_⟩ <;> linarith

/-- C15: expanding by a non-negative amount and then by any amount adds up. -/
theorem C15_expand_add (b b' : BBox K) (hb : b.Norm) (dx dy ex ey : K) (h1 : 0 ≤ dx) (h2 : 0 ≤ dy)
    (h : b.expand dx (some dy) = .ok b') :
    b'.expand ex (some ey) = b.expand (dx + ex) (some (dy + ey)) := by
  cases b with
  | none => cases h
  | box xl yl xh yh =>
    simp only [Norm] at hb
    rw [expand_box, max_eq_left (by linarith), Option.getD_some, max_eq_left (by linarith)] at h
    cases h
    rw [expand_box, expand_box, Option.getD_some, Option.getD_some]
    have key : ∀ l h d e : K, 0 ≤ d → l ≤ h →
        max e (-(h + d - (l - d)) / 2) = max (d + e) (-(h - l) / 2) - d := by
      intro l h d e hd hl
      rcases le_total e (-(h + d - (l - d)) / 2) with g | g
      · rw [max_eq_right g, max_eq_right (by linarith)]; ring
      · rw [max_eq_left g, max_eq_left (by linarith)]; ring
    rw [key _ _ _ _ h1 hb.1, key _ _ _ _ h2 hb.2]
    simp only [Except.ok.injEq, box.injEq]
    refine ⟨?_, ?_, ?_, ?_⟩ <;> ring

/-- C15: it does not add up in general (shrinking loses information). -/
theorem C15_expand_add_counterexample :
    ∃ b b' b'' c : BBox ℚ, b.Norm ∧ b.expand (-5) Option.none = .ok b' ∧ b'.expand 5 Option.none = .ok b'' ∧
      b.expand (-5 + 5) Option.none = .ok c ∧ b'' ≠ c := by
  refine ⟨.box 0 0 2 2, .box 1 1 1 1, .box (-4) (-4) 6 6, .box 0 0 2 2, by norm_num [Norm], ?_, ?_, ?_, by decide⟩
  · rw [expand_box]; norm_num
  · rw [expand_box]; norm_num
  · rw [expand_box]; norm_num

example : ∃ b', (BBox.box (0 : ℚ) 0 4 2).expand (-3) (some 1) = .ok b' ∧ b' = .box 2 (-1) 2 3 := by
  refine ⟨_, expand_box _ _ _ _ _ _, ?_⟩; norm_num

/-! ### C16 -/

/-- One coordinate of an affine map of a box is between the extremes of its four corner values. -/
theorem affine_between (a b c xl yl xh yh x y m : K) (hx1 : xl ≤ x) (hx2 : x ≤ xh) (hy1 : yl ≤ y) (hy2 : y ≤ yh)
    (h1 : m ≤ a * xl + b * yl + c) (h2 : m ≤ a * xl + b * yh + c) (h3 : m ≤ a * xh + b * yl + c)
    (h4 : m ≤ a * xh + b * yh + c) : m ≤ a * x + b * y + c := by
  have hb : min (b * yl) (b * yh) ≤ b * y := by
    rcases le_total 0 b with h | h
    · exact (min_le_left _ _).trans (mul_le_mul_of_nonneg_left hy1 h)
    · exact (min_le_right _ _).trans (mul_le_mul_of_nonpos_left hy2 h)
  have ha : min (a * xl) (a * xh) ≤ a * x := by
    rcases le_total 0 a with h | h
    · exact (min_le_left _ _).trans (mul_le_mul_of_nonneg_left hx1 h)
    · exact (min_le_right _ _).trans (mul_le_mul_of_nonpos_left hx2 h)
  rcases min_choice (b * yl) (b * yh) with e | e <;> rw [e] at hb <;>
  rcases min_choice (a * xl) (a * xh) with e' | e' <;> rw [e'] at ha <;> linarith

theorem affine_between' (a b c xl yl xh yh x y m : K) (hx1 : xl ≤ x) (hx2 : x ≤ xh) (hy1 : yl ≤ y) (hy2 : y ≤ yh)
    (h1 : a * xl + b * yl + c ≤ m) (h2 : a * xl + b * yh + c ≤ m) (h3 : a * xh + b * yl + c ≤ m)
    (h4 : a * xh + b * yh + c ≤ m) : a * x + b * y + c ≤ m := by
  have := affine_between (-a) (-b) (-c) xl yl xh yh x y (-m) hx1 hx2 hy1 hy2
    (by linarith) (by linarith) (by linarith) (by linarith)
  linarith

/-- C16: `transformed` raises `ValueError` for none; otherwise its result is the least box whose closed region
contains the image of every point of the box. -/
theorem C16_transformed_tight (b : BBox K) (hb : b.Norm) (m : Mat3 K) :
    (b = .none → b.transformed m.apply = .error .value) ∧
    (b ≠ .none → ∃ b', b.transformed m.apply = .ok b' ∧ b'.Norm ∧
      ∀ c : BBox K, Region b' ⊆ Region c ↔ ∀ p ∈ Region b, m.apply p ∈ Region c) := by
  constructor
  · rintro rfl; rfl
  · intro hne
    cases b with
    | none => exact absurd rfl hne
    | box xl yl xh yh =>
      simp only [Norm] at hb
      refine ⟨_, rfl, norm_add _ _, fun c => ?_⟩
      rw [region_add_lub (norm_ofPts _ _) (norm_ofPts _ _), C08_init_corners, C08_init_corners]
      constructor
      · rintro ⟨⟨h1, h2⟩, h3, h4⟩ p ⟨⟨hx1, hx2⟩, hy1, hy2⟩
        cases c with
        | none => exact h1.elim
        | box a' b' c' d' =>
          obtain ⟨⟨h1a, h1b⟩, h1c, h1d⟩ := h1
          obtain ⟨⟨h2a, h2b⟩, h2c, h2d⟩ := h2
          obtain ⟨⟨h3a, h3b⟩, h3c, h3d⟩ := h3
          obtain ⟨⟨h4a, h4b⟩, h4c, h4d⟩ := h4
          exact ⟨⟨affine_between _ _ _ xl yl xh yh _ _ _ hx1 hx2 hy1 hy2 h1a h2a h4a h3a,
              affine_between' _ _ _ xl yl xh yh _ _ _ hx1 hx2 hy1 hy2 h1b h2b h4b h3b⟩,
            affine_between _ _ _ xl yl xh yh _ _ _ hx1 hx2 hy1 hy2 h1c h2c h4c h3c,
            affine_between' _ _ _ xl yl xh yh _ _ _ hx1 hx2 hy1 hy2 h1d h2d h4d h3d⟩
      · intro h
        refine ⟨⟨h _ ?_, h _ ?_⟩, h _ ?_, h _ ?_⟩ <;> simp [Region, hb.1, hb.2]

/-- C16: transforming by the identity changes nothing. -/
theorem C16_transformed_id (b : BBox K) (hb : b.Norm) (hne : b ≠ .none) :
    b.transformed (Mat3.one : Mat3 K).apply = .ok b := by
  obtain ⟨b', h1, h2, h3⟩ := (C16_transformed_tight b hb Mat3.one).2 hne
  rw [h1]
  congr 1
  exact region_eq_of_forall h2 hb fun c => by rw [h3]; simp only [Mat3.apply_one]; rfl

example : (BBox.box (0 : ℚ) 0 4 2).transformed (Mat3.of6 0 (-1) 10 1 0 0).apply = .ok (.box 8 0 10 4) := by
  simp only [transformed, pll, plh, phl, phh, Mat3.apply, Mat3.of6, add, ofPts, mk', bind, Except.bind, pure, Except.pure]
  norm_num

end X7.BBox
