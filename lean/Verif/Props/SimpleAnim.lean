import Verif.Spec.SimpleAnim
import Verif.Props.TransformGeom
import Verif.Props.AnimTime

/-!
C83: drawing calls draw in transformed coordinates; what `SimpleAnimation` shows of its drawing space, and that steps are independent.
-/

noncomputable section

namespace X7.SA
variable {C : Type} (gc : GridColors C)

/-- C83: lines, polygons and grids are drawn through the matrix of the context: after any list of such calls, the layer has what it
had before and then what each call draws, in order, every point moved by the matrix; the matrix is unchanged. -/
theorem C83_drawn (cmds : List (Cmd C)) (hc : ∀ c ∈ cmds, c.Draws) (d : Ctx C) :
    d.run gc cmds = ({ d with layer := d.layer ++ (cmds.flatMap (·.shapes gc)).map (·.map d.m.transform) }, none) := by
  induction cmds generalizing d with
  | nil => simp [Ctx.run]
  | cons c rest ih =>
    have hrest := fun x hx => hc x (List.mem_cons_of_mem c hx)
    have h1 : d.step gc c = ({ d with layer := d.layer ++ (c.shapes gc).map (·.map d.m.transform) }, none) := by
      have h0 := hc c (by simp)
      cases c with
      | line x1 y1 x2 y2 c w => rfl
      | polygon pts f o =>
        simp only [Ctx.step, Ctx.polygon, C28_transform_pts_plain d.m pts h0, Cmd.shapes, List.map_cons, List.map_nil, Shape.map]
      | grid s c =>
        simp only [Ctx.step, Ctx.grid, Ctx.square, Ctx.line, Cmd.shapes, squareShapes, List.map_cons, List.map_nil, Shape.map,
          List.map_append, List.append_assoc, List.cons_append, List.nil_append]
      | setMatrix m => exact h0.elim
      | matrix op => exact h0.elim
      | raise e => exact h0.elim
    rw [Ctx.run, h1]
    simp only
    rw [ih hrest]
    simp

/-- C83 (a polygon without points is an error, and draws nothing). -/
theorem C83_polygon_empty (d : Ctx C) (f o : Option C) : d.step gc (.polygon [] f o) = (d, some .value) := rfl

/-- C83 (false: `grid` has the spacing and centre asked for): both arguments are ignored. -/
theorem C83_grid_counterexample (d : Ctx C) (s s' : ℝ) (c c' : Pt ℝ) : d.step gc (.grid s c) = d.step gc (.grid s' c') := rfl

/-- C83: after `set_matrix(m)` everything is drawn through `m`, until the matrix is changed again. -/
theorem C83_set_matrix (cmds : List (Cmd C)) (hc : ∀ c ∈ cmds, c.Draws) (d : Ctx C) (m : Mat3 ℝ) :
    ∃ d', d.run gc (.setMatrix (some m) :: cmds) = (d', none) ∧
      d'.layer = d.layer ++ (cmds.flatMap (·.shapes gc)).map (·.map m.apply) := by
  refine ⟨_, C83_drawn gc cmds hc { d with m := d.m.setMatrix m }, rfl⟩

/-- C83: calls of `set_matrix(None)` may be left out of any drawing function: nothing changes, not even the exception. -/
theorem C83_set_matrix_none (cmds : List (Cmd C)) (p : Cmd C → Bool) (hp : ∀ c ∈ cmds, p c = false → c = .setMatrix none)
    (d : Ctx C) : d.run gc (cmds.filter p) = d.run gc cmds := by
  induction cmds generalizing d with
  | nil => rfl
  | cons c rest ih =>
    have ih := fun d => ih (fun x hx => hp x (List.mem_cons_of_mem c hx)) d
    by_cases h : p c
    · rw [List.filter_cons_of_pos h]
      simp only [Ctx.run]
      rcases d.step gc c with ⟨d', _ | e⟩
      · exact ih d'
      · rfl
    · rw [List.filter_cons_of_neg h, ih, hp c (by simp) (by simpa using h)]
      rfl

/-- C83, the drawing space: `next_step` maps the point (x, y) to x from the left side of `draw_bbox` in units of the box, and to minus y
from the low side. -/
theorem C83_space (sa : SimpleAnimation C) (xl yl xh yh : ℝ) (hb : sa.bbox = .box xl yl xh yh) (hf : sa.bbox.Fat) (hw : 0 ≤ sa.w)
    (hh : 0 ≤ sa.h) :
    ∃ d, sa.nextStep = .ok d ∧ d.layer = [] ∧
      ∀ p, d.m.transform p = ⟨(p.x - xl) / (xh - xl) * sa.w, (-p.y - yl) / (yh - yl) * sa.h⟩ := by
  rw [hb] at hf
  obtain ⟨hx, hy⟩ := hf
  have hx' : xh - xl ≠ 0 := (sub_pos.2 hx).ne'
  have hy' : yh - yl ≠ 0 := (sub_pos.2 hy).ne'
  have haff : (TState.canvasFit sa.w sa.h 1 0 sa.h).mat.Affine := by
    simp [Mat3.Affine, TState.canvasFit, TState.scale, TState.translate, TState.new, Mat3.mul, Mat3.scaleMat, Mat3.translateMat, Mat3.one]
  obtain ⟨h1, h2⟩ := C24_scale_bbox (TState.canvasFit sa.w sa.h 1 0 sa.h) haff xl yl xh yh 0 0 sa.w sa.h hx.ne hy.ne
  have hmk : BBox.mk' 0 0 sa.w sa.h = .box 0 0 sa.w sa.h := by
    simp [BBox.mk', hw, hh]
  refine ⟨⟨((TState.canvasFit sa.w sa.h 1 0 sa.h).scaleBBox (.box xl yl xh yh) (.box 0 0 sa.w sa.h) false).st, []⟩, ?_, rfl, ?_⟩
  · rw [SimpleAnimation.nextStep, hb, hmk]
    simp only [h1]
  · intro p
    have := h2 p ((p.x - xl) / (xh - xl)) ((-p.y - yl) / (yh - yl)) (by
      rw [C27_canvas_fit]
      ext
      · simp only; field_simp; ring
      · simp only; field_simp; ring)
    rw [this]
    ext <;> simp

/-- C83: if `draw_bbox` is symmetric about the x axis (like the default), exactly the points of the box are on the image, its lower left
corner at the lower left (y grows downwards in images). -/
theorem C83_symmetric (sa : SimpleAnimation C) (xl xh y : ℝ) (hb : sa.bbox = .box xl (-y) xh y) (hf : sa.bbox.Fat) (hw : 0 < sa.w)
    (hh : 0 < sa.h) :
    ∃ d, sa.nextStep = .ok d ∧ d.m.transform ⟨xl, -y⟩ = ⟨0, sa.h⟩ ∧ d.m.transform ⟨xh, y⟩ = ⟨sa.w, 0⟩ ∧
      ∀ p, p ∈ sa.bbox.Region ↔ OnImage sa.w sa.h (d.m.transform p) := by
  obtain ⟨d, h1, _, h3⟩ := C83_space sa xl (-y) xh y hb hf hw.le hh.le
  rw [hb] at hf
  obtain ⟨hx, hy⟩ := hf
  have hx' : 0 < xh - xl := sub_pos.2 hx
  have hy' : 0 < y - -y := sub_pos.2 hy
  have hyy : y ≠ 0 := by intro e; rw [e] at hy'; simp at hy'
  refine ⟨d, h1, ?_, ?_, ?_⟩
  · rw [h3]
    ext
    · simp
    · simp only; field_simp
  · rw [h3]
    ext
    · simp only; field_simp
    · simp
  · intro p
    rw [hb, h3]
    simp only [BBox.Region, Set.mem_setOf_eq, OnImage]
    have key : ∀ {a b c : ℝ}, 0 < b → 0 < c → ((0 ≤ a / b * c ↔ 0 ≤ a) ∧ (a / b * c ≤ c ↔ a ≤ b)) := by
      intro a b c hb hc
      constructor
      · rw [mul_nonneg_iff_of_pos_right hc, le_div_iff₀ hb, zero_mul]
      · rw [mul_le_iff_le_one_left hc, div_le_one hb]
    rw [(key hx' hw).1, (key hx' hw).2, (key hy' hh).1, (key hy' hh).2]
    constructor
    · rintro ⟨⟨a, b⟩, c, e⟩; refine ⟨⟨?_, ?_⟩, ?_, ?_⟩ <;> linarith
    · rintro ⟨⟨a, b⟩, c, e⟩; refine ⟨⟨?_, ?_⟩, ?_, ?_⟩ <;> linarith

/-- C83 (false in general: `draw_bbox` is what the image shows): whenever the box is not symmetric about the x axis, some point of it is
off the image; if it lies above or below the axis, all its points are. -/
theorem C83_space_counterexample (sa : SimpleAnimation C) (xl yl xh yh : ℝ) (hb : sa.bbox = .box xl yl xh yh) (hf : sa.bbox.Fat)
    (hw : 0 < sa.w) (hh : 0 < sa.h) :
    ∃ d, sa.nextStep = .ok d ∧ (yl + yh ≠ 0 → ∃ p ∈ sa.bbox.Region, ¬ OnImage sa.w sa.h (d.m.transform p)) ∧
      (0 < yl ∨ yh < 0 → ∀ p ∈ sa.bbox.Region, ¬ OnImage sa.w sa.h (d.m.transform p)) := by
  obtain ⟨d, h1, _, h3⟩ := C83_space sa xl yl xh yh hb hf hw.le hh.le
  rw [hb] at hf
  obtain ⟨hx, hy⟩ := hf
  have hy' : 0 < yh - yl := sub_pos.2 hy
  have key : ∀ {a b c : ℝ}, 0 < b → 0 < c → ((0 ≤ a / b * c ↔ 0 ≤ a) ∧ (a / b * c ≤ c ↔ a ≤ b)) := by
    intro a b c hb hc
    constructor
    · rw [mul_nonneg_iff_of_pos_right hc, le_div_iff₀ hb, zero_mul]
    · rw [mul_le_iff_le_one_left hc, div_le_one hb]
  refine ⟨d, h1, ?_, ?_⟩
  · intro hne
    rcases lt_or_gt_of_ne hne with h | h
    · refine ⟨⟨xl, yl⟩, by rw [hb]; exact ⟨⟨le_rfl, hx.le⟩, le_rfl, hy.le⟩, ?_⟩
      rw [h3]
      rintro ⟨_, _, h4⟩
      simp only at h4
      rw [(key hy' hh).2] at h4
      linarith
    · refine ⟨⟨xl, yh⟩, by rw [hb]; exact ⟨⟨le_rfl, hx.le⟩, hy.le, le_rfl⟩, ?_⟩
      rw [h3]
      rintro ⟨_, h4, _⟩
      simp only at h4
      rw [(key hy' hh).1] at h4
      linarith
  · rintro hyp p hp
    rw [hb] at hp
    obtain ⟨_, hp1, hp2⟩ := hp
    rw [h3]
    rintro ⟨_, h4, h5⟩
    simp only at h4 h5
    rw [(key hy' hh).1] at h4
    rw [(key hy' hh).2] at h5
    rcases hyp with h | h <;> linarith

/-- C83: a box without width or height cannot be shown: every step raises `ZeroDivisionError`. -/
theorem C83_flat (sa : SimpleAnimation C) (xl yl xh yh : ℝ) (hb : sa.bbox = .box xl yl xh yh) (hf : xh = xl ∨ yh = yl) :
    sa.nextStep = .error .zeroDivision := by
  rw [SimpleAnimation.nextStep, hb, (C24_zero_size _ xl yl xh yh _ hf).2]

theorem loop_refines (sa : SimpleAnimation C) {d : Ctx C} (hd : sa.nextStep = .ok d) (ss : ℝ) (k : ℕ) : ∀ (i : ℕ) (images : List (List (Shape C))),
    let one t := d.run gc (sa.draw t)
    let r := sa.loop gc ss k i images
    let r' := Anim.animateFrom (fun t => if (one t).2 = none then some (one t).1.layer else none) (fun t => (one t).1.layer) sa.t_low ss k i images
    r.1 = r'.1 ∧ (r.2 = none ↔ r'.2 = true) := by
  induction k with
  | zero => intro i images; exact ⟨rfl, by simp [SimpleAnimation.loop, Anim.animateFrom]⟩
  | succ k ih =>
    intro i images
    simp only [SimpleAnimation.loop, hd, Anim.animateFrom]
    have ih' := fun images => ih (i + 1) images
    simp only at ih'
    rcases hr : d.run gc (sa.draw (sa.t_low + i * ss)) with ⟨d', e⟩
    cases e with
    | none => exact ih' _
    | some e => simp

/-- C83, steps are independent: `animate` makes the images that drawing each step on a new context makes, whatever the drawing function does
to the matrix of the context it is given: it behaves as C62 says of a drawing function from times to images. -/
theorem C83_animate (sa : SimpleAnimation C) {d : Ctx C} (hd : sa.nextStep = .ok d) (hs : 0 < sa.steps) (images : List (List (Shape C))) :
    let one t := d.run gc (sa.draw t)
    ∃ ok, Anim.animate (fun t => if (one t).2 = none then some (one t).1.layer else none) (fun t => (one t).1.layer) sa.t_low sa.t_high
        sa.steps images = .ok ((sa.animate gc images).1, ok) ∧ ((sa.animate gc images).2 = none ↔ ok = true) := by
  intro one
  have hne : (sa.steps : ℝ) ≠ 0 := by exact_mod_cast hs.ne'
  have hdiv : pyDiv (sa.t_high - sa.t_low) (sa.steps : ℝ) = .ok ((sa.t_high - sa.t_low) / sa.steps) := by
    simp [pyDiv, hne]
  obtain ⟨h1, h2⟩ := loop_refines gc sa hd ((sa.t_high - sa.t_low) / sa.steps) (sa.steps + 1) 0 images
  refine ⟨(Anim.animateFrom (fun t => if (one t).2 = none then some (one t).1.layer else none) (fun t => (one t).1.layer) sa.t_low
      ((sa.t_high - sa.t_low) / sa.steps) (sa.steps + 1) 0 images).2, ?_, ?_⟩
  · rw [Anim.animate, hdiv, SimpleAnimation.animate, hdiv]
    simp only
    rw [h1]
  · rw [SimpleAnimation.animate, hdiv]
    exact h2

/-- C83, everything together: if every step draws only lines, polygons and grids, `animate` appends, for each of the `steps + 1` times from
`t_low` to `t_high`, twice the image of what the drawing function draws then, seen through the same map. -/
theorem C83_images (sa : SimpleAnimation C) {d : Ctx C} (hd : sa.nextStep = .ok d) (hs : 0 < sa.steps)
    (hdraw : ∀ t, ∀ c ∈ sa.draw t, c.Draws) (images : List (List (Shape C))) :
    sa.animate gc images = (images ++ (List.range (sa.steps + 1)).flatMap (fun (i : ℕ) =>
      let im := ((sa.draw (sa.t_low + (i : ℝ) * ((sa.t_high - sa.t_low) / sa.steps))).flatMap (·.shapes gc)).map (·.map d.m.transform)
      [im, im]), none) := by
  have hne : (sa.steps : ℝ) ≠ 0 := by exact_mod_cast hs.ne'
  have hdiv : pyDiv (sa.t_high - sa.t_low) (sa.steps : ℝ) = .ok ((sa.t_high - sa.t_low) / sa.steps) := by
    simp [pyDiv, hne]
  have hlayer : d.layer = [] := by
    rw [SimpleAnimation.nextStep] at hd
    split at hd
    · simp at hd
    · simp only [Except.ok.injEq] at hd
      rw [← hd]
  rw [SimpleAnimation.animate, hdiv]
  simp only
  have key : ∀ (k i : ℕ) (images : List (List (Shape C))),
      sa.loop gc ((sa.t_high - sa.t_low) / sa.steps) k i images = (images ++ (List.range' i k).flatMap (fun (i : ℕ) =>
        [((sa.draw (sa.t_low + (i : ℝ) * ((sa.t_high - sa.t_low) / sa.steps))).flatMap (·.shapes gc)).map (·.map d.m.transform),
         ((sa.draw (sa.t_low + (i : ℝ) * ((sa.t_high - sa.t_low) / sa.steps))).flatMap (·.shapes gc)).map (·.map d.m.transform)]), none) := by
    intro k
    induction k with
    | zero => intro i images; simp [SimpleAnimation.loop]
    | succ k ih =>
      intro i images
      rw [SimpleAnimation.loop, hd]
      simp only [C83_drawn gc _ (hdraw _) d, hlayer, List.nil_append]
      rw [ih, List.range'_succ]
      simp
  rw [key, List.range_eq_range']

/-- The default box is symmetric, and a drawing function that only draws. -/
example : ∃ sa : SimpleAnimation ℕ, SimpleAnimation.new (fun t => [Cmd.line 0 0 t 1 0 2, .grid 10 ⟨0, 0⟩]) 500 500 (-250) (-250) 250 250 20 0 1 = .ok sa ∧
    sa.bbox = .box (-250) (-250) 250 250 ∧ sa.bbox.Fat ∧ 0 < sa.steps ∧ ∀ t, ∀ c ∈ sa.draw t, c.Draws := by
  have e : BBox.mk' (-250 : ℝ) (-250) 250 250 = .box (-250) (-250) 250 250 := by
    simp only [BBox.mk']; norm_num
  refine ⟨⟨fun t => [Cmd.line 0 0 t 1 0 2, .grid 10 ⟨0, 0⟩], 500, 500, .box (-250) (-250) 250 250, 20, 0, 1⟩, ?_, rfl, ?_, ?_, ?_⟩
  · simp [SimpleAnimation.new, e]
  · simp [BBox.Fat]
  · norm_num
  · intro t c hc
    simp only [List.mem_cons, List.not_mem_nil, or_false] at hc
    rcases hc with rfl | rfl <;> trivial

end X7.SA
