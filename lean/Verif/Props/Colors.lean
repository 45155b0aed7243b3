import Verif.Model.Colors
import Mathlib.Tactic.Linarith
import Mathlib.Tactic.NormNum

/-!
C55, C66: pens, brushes and the tables of pens per kind of shape.
-/

namespace X7

/-- C55: the width used for a stroke: none without a pen; the pen's width if positive; otherwise the magnitude scaled by the
mean stretch of the two axes. -/
theorem C55_stroke_width (pb : PenBrush) (t : TState) :
    (pb.pen = none → pb.strokeWidth t = none) ∧
    (∀ p, pb.pen = some p → 0 < p.width → pb.strokeWidth t = some p.width) ∧
    (∀ p, pb.pen = some p → p.width ≤ 0 →
      pb.strokeWidth t = some (|p.width| * (hypot t.mat.a t.mat.d + hypot t.mat.b t.mat.e) / 2)) := by
  refine ⟨fun h => by simp [PenBrush.strokeWidth, h], fun p h hw => by simp [PenBrush.strokeWidth, h, hw], fun p h hw => ?_⟩
  simp only [PenBrush.strokeWidth, h, gt_iff_lt, not_lt.2 hw, if_false, TState.transformWidth, TState.scaleVals]
  rw [abs_of_nonneg (show (0 : ℝ) ≤ hypot t.mat.a t.mat.d from Real.sqrt_nonneg _),
    abs_of_nonneg (show (0 : ℝ) ≤ hypot t.mat.b t.mat.e from Real.sqrt_nonneg _), abs_of_nonpos hw]

/-- C55: hence a stroke width is never negative. -/
theorem C55_stroke_width_nonneg (pb : PenBrush) (t : TState) (w : ℝ) (h : pb.strokeWidth t = some w) : 0 ≤ w := by
  obtain ⟨h1, h2, h3⟩ := C55_stroke_width pb t
  cases hp : pb.pen with
  | none => rw [h1 hp] at h; simp at h
  | some p =>
    rcases lt_or_ge 0 p.width with hw | hw
    · rw [h2 p hp hw] at h; simp at h; linarith
    · rw [h3 p hp hw] at h
      simp only [Option.some.injEq] at h
      rw [← h]
      have a1 : (0 : ℝ) ≤ hypot t.mat.a t.mat.d := Real.sqrt_nonneg _
      have a2 : (0 : ℝ) ≤ hypot t.mat.b t.mat.e := Real.sqrt_nonneg _
      positivity

/-- C55: `replace(pen=...)` and `replace(brush=...)` with a pen and a brush object change exactly that part. -/
theorem C55_replace_objects (pb : PenBrush) (p : Pen) (b : Brush) :
    pb.replace (some (.pen p)) none none = .ok ⟨some p, pb.brush⟩ ∧
    pb.replace none none (some (.brush b)) = .ok ⟨pb.pen, some b⟩ ∧
    pb.replace (some (.pen p)) none (some (.brush b)) = .ok ⟨some p, some b⟩ ∧
    pb.replace none none none = .ok pb := by
  obtain ⟨pen, brush⟩ := pb
  cases pen <;> cases brush <;>
    simp [PenBrush.replace, PenArg.truthy, BrushArg.truthy, PenBrush.init, PenBrush.penOf, BrushArg.toBrush]

/-- C55: `replace(width=w)` changes the width of the pen if there is one and nothing else. -/
theorem C55_replace_width (pb : PenBrush) (w : ℝ) :
    pb.replace none (some w) none = .ok ⟨pb.pen.map fun p => ⟨p.brush, w⟩, pb.brush⟩ := by
  obtain ⟨pen, brush⟩ := pb
  cases pen <;> cases brush <;>
    simp [PenBrush.replace, PenArg.truthy, PenBrush.init, PenBrush.penOf, BrushArg.toBrush, Pen.init]

/-- C55: `replace` fails exactly if a (true) pen and a width are both given, with `ValueError`. -/
theorem C55_replace_fails_iff (pb : PenBrush) (pen : Option PenArg) (width : Option ℝ) (brush : Option BrushArg) (e : PyErr) :
    pb.replace pen width brush = .error e ↔ e = .value ∧ width.isSome = true ∧ ∃ p, pen = some p ∧ p.truthy = true := by
  unfold PenBrush.replace
  cases pen with
  | none => simp
  | some p =>
    cases hp : p.truthy <;> cases width <;> simp [hp]
    exact eq_comm

/-- C55: `Pen.replace` with objects. -/
theorem C55_pen_replace (p : Pen) (b : Brush) (w : ℝ) :
    p.replace (some (.brush b)) none = ⟨b, p.width⟩ ∧ p.replace none (some w) = ⟨p.brush, w⟩ ∧
    p.replace none none = p ∧ p.replace (some (.brush b)) (some w) = ⟨b, w⟩ := by
  simp [Pen.replace, Pen.init, BrushArg.toBrush, BrushArg.truthy]

/-- C55: a pen with an explicit width of 0 can be requested (0 is not mistaken for a missing width). -/
theorem C55_replace_width_zero (p : Pen) (pb : PenBrush) (hp : pb.pen = some p) :
    ∃ q, pb.replace none (some 0) none = .ok q ∧ q.pen = some ⟨p.brush, 0⟩ :=
  ⟨_, C55_replace_width pb 0, by simp [hp]⟩

/-- C55: the printed form, evaluated, gives an equal object. -/
theorem C55_repr_round_trip (pb : PenBrush) : PenBrush.init pb.reprArgs.1 pb.reprArgs.2 = pb := by
  obtain ⟨pen, brush⟩ := pb
  cases pen <;> cases brush <;>
    simp [PenBrush.init, PenBrush.reprArgs, PenBrush.penOf, BrushArg.toBrush, Pen.init]

/-- C55: `pens.replace_width(w)` changes exactly the widths of the pens that exist. -/
theorem C55_replace_width_all (s : ByShape PenBrush) (w : ℝ) : ∃ s', PensByShape.replaceWidth s (some w) = .ok s' ∧
    ∀ k pb, s.get k = .ok pb → s'.get k = .ok ⟨pb.pen.map fun p => ⟨p.brush, w⟩, pb.brush⟩ := by
  refine ⟨⟨⟨s.edge.pen.map fun p => ⟨p.brush, w⟩, s.edge.brush⟩, ⟨s.filled.pen.map fun p => ⟨p.brush, w⟩, s.filled.brush⟩,
    ⟨s.clear.pen.map fun p => ⟨p.brush, w⟩, s.clear.brush⟩, ⟨s.edge_filled.pen.map fun p => ⟨p.brush, w⟩, s.edge_filled.brush⟩,
    ⟨s.edge_clear.pen.map fun p => ⟨p.brush, w⟩, s.edge_clear.brush⟩⟩, ?_, ?_⟩
  · simp [PensByShape.replaceWidth, C55_replace_width, PensByShape.init, bind, Except.bind]
  · intro k pb h
    unfold ByShape.get at h ⊢
    split_ifs at h ⊢ <;> first | (cases h; rfl) | cases h

/-- C55: the table of pens: in draft mode every kind is a hairline outline in `color`; otherwise the kinds are as
documented. -/
theorem C55_make (color fill transparent : Color) (w : ℝ) :
    (∀ k ∈ ByShape.keys, (PensByShape.make true color fill transparent w).get k = .ok ⟨some ⟨⟨color⟩, 0⟩, none⟩) ∧
    (PensByShape.make false color fill transparent w).get "edge" = .ok ⟨some ⟨⟨color⟩, w⟩, none⟩ ∧
    (PensByShape.make false color fill transparent w).get "filled" = .ok ⟨none, some ⟨color⟩⟩ ∧
    (PensByShape.make false color fill transparent w).get "clear" = .ok ⟨none, some ⟨transparent⟩⟩ ∧
    (PensByShape.make false color fill transparent w).get "edge_filled" = .ok ⟨some ⟨⟨color⟩, w⟩, some ⟨fill⟩⟩ ∧
    (PensByShape.make false color fill transparent w).get "edge_clear" = .ok ⟨some ⟨⟨color⟩, w⟩, some ⟨transparent⟩⟩ := by
  refine ⟨?_, ?_⟩
  · intro k hk
    simp [ByShape.keys] at hk
    rcases hk with rfl | rfl | rfl | rfl | rfl <;> rfl
  · exact ⟨rfl, rfl, rfl, rfl, rfl⟩

/-- C55: a lookup fails exactly for names that are not kinds of shapes. -/
theorem C55_getitem {α : Type*} (s : ByShape α) (k : String) :
    (∃ v, s.get k = .ok v) ↔ k ∈ ByShape.keys := by
  unfold ByShape.get
  constructor
  · intro ⟨v, h⟩
    simp only [ByShape.keys, List.mem_cons, List.not_mem_nil, or_false]
    split_ifs at h <;> simp_all
  · intro h
    simp only [ByShape.keys, List.mem_cons, List.not_mem_nil, or_false] at h
    rcases h with rfl | rfl | rfl | rfl | rfl <;> exact ⟨_, rfl⟩

/-- C66: the old colour table and the pen table agree on which kinds are filled and which are outlined, for colours that are
true and not 'NoColor'. -/
theorem C66_tables_agree (draft : Bool) (color fill transparent : Color) (w : ℝ)
    (h1 : color.truthy = true ∧ color ≠ .nocolor) (h2 : fill.truthy = true ∧ fill ≠ .nocolor)
    (h3 : transparent.truthy = true ∧ transparent ≠ .nocolor)
    (k : String) (cs : Colors) (pb : PenBrush)
    (hc : (ColorsByShape.make draft color fill transparent).get k = .ok cs)
    (hp : (PensByShape.make draft color fill transparent w).get k = .ok pb) :
    cs.filled = pb.filled ∧ cs.outline.isSome = pb.stroked ∧ cs.fill = pb.fillColor ∧ cs.outline = pb.strokeColor := by
  cases draft <;>
    (unfold ByShape.get at hc hp
     split_ifs at hc hp <;> first
     | (cases hc
        cases hp
        simp [Colors.filled, Colors.init, Color.noColor, ColorsByShape.make, PensByShape.make, PensByShape.init, PenBrush.init,
         PenBrush.penOf, Pen.init, BrushArg.toBrush, PenBrush.filled, PenBrush.stroked, PenBrush.fillColor, PenBrush.strokeColor,
         h1.1, h1.2, h2.1, h2.2, h3.1, h3.2])
     | cases hc)

/-- C66: without that the two tables differ: 'NoColor' is a colour for pens but means none in the colour table. -/
theorem C66_nocolor_counterexample : ∃ cs pb,
    (ColorsByShape.make false .nocolor .nocolor .transparent).get "edge_filled" = .ok cs ∧
    (PensByShape.make false .nocolor .nocolor .transparent 0).get "edge_filled" = .ok pb ∧
    cs.filled = false ∧ pb.filled = true := by
  refine ⟨_, _, rfl, rfl, ?_, rfl⟩
  simp [ColorsByShape.make, Colors.filled, Colors.init, Color.noColor]

example : (Color.name "white").truthy = true ∧ Color.name "white" ≠ .nocolor := by decide
example : Color.transparent.truthy = true ∧ Color.transparent ≠ .nocolor := by decide
example : (⟨some ⟨⟨.name "red"⟩, -2⟩, none⟩ : PenBrush).strokeWidth (TState.new.scale 3 3) = some 6 := by
  have h : hypot 3 0 = 3 := by
    rw [hypot, show (3 : ℝ) * 3 + 0 * 0 = 3 ^ 2 by norm_num]; exact Real.sqrt_sq (by norm_num)
  have h' : hypot 0 3 = 3 := by
    rw [hypot, show (0 : ℝ) * 0 + 3 * 3 = 3 ^ 2 by norm_num]; exact Real.sqrt_sq (by norm_num)
  rw [(C55_stroke_width _ _).2.2 _ rfl (by norm_num)]
  simp [TState.scale, TState.new, Mat3.mul, Mat3.scaleMat, Mat3.one, h, h']
  norm_num

end X7
