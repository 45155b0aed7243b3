import Verif.Lemmas.VecReal
import Verif.Props.BBox
import Verif.Spec.Line

/-!
C17-C20: lines and segments.
-/

namespace X7.Line

section Field
variable {K : Type*} [Field K]

theorem at_addVector (l : Line K) (t : K) : l.origin.addVector (l.direction.mul t) = l.at' t := by
  ext <;> simp [Pt.addVector, Vec.mul, at', mul_comm]

/-- The three ways of making a line and its endpoints/midpoint. -/
theorem C18_construction (p q : Pt K) (l : Line K) (v : Vec K) :
    fromPts p q = ofPt p q ∧ (fromPts p q).p2 = q ∧ l.p2 = l.at' 1 ∧ l.midpoint = l.at' (1 / 2) ∧
    (l.add v).sub v = l := by
  refine ⟨rfl, ?_, ?_, ?_, ?_⟩
  · ext <;> simp [fromPts, p2, Pt.addVector, Pt.sub]
  · ext <;> simp [p2, Pt.addVector, at']
  · exact at_addVector l _
  · ext <;> simp [add, sub, Pt.addVector, Pt.subVec]

variable [DecidableEq K]

theorem intersection_eq (l o : Line K) (h : l.direction.cross o.direction ≠ 0) :
    l.intersection o = .ok (o.at' ((l.origin.sub o.origin).cross l.direction / o.direction.cross l.direction)) := by
  have h2 : l.direction.normal.dot o.direction ≠ 0 := by
    intro e; apply h; simp only [Vec.normal, Vec.dot, Vec.cross] at *; linear_combination -e
  have hr : l.direction.y * o.direction.x + -l.direction.x * o.direction.y ≠ 0 := h2
  simp only [intersection, h, if_false, pyDiv, h2, bind, Except.bind, pure, Except.pure]
  rw [at_addVector]
  congr 3
  · simp only [Vec.normal, Vec.dot, Vec.cross, Pt.sub]; ring
  · simp only [Vec.normal, Vec.dot, Vec.cross]; ring

/-- C18: `ParallelLineError` is raised exactly when the directions are linearly dependent (cross product 0); no
other exception is possible. -/
theorem C18_raises_iff (l o : Line K) :
    (l.direction.cross o.direction = 0 ↔ l.intersection o = .error .parallelLine) ∧
    (l.direction.cross o.direction ≠ 0 ↔ ∃ p, l.intersection o = .ok p) := by
  by_cases h : l.direction.cross o.direction = 0
  · have e : l.intersection o = .error .parallelLine := by
      simp [intersection, h, throw, throwThe, MonadExceptOf.throw, bind, Except.bind]
    simp [h, e]
  · have e := intersection_eq l o h
    simp [h, e]

/-- C18: the returned point is on both lines and is the only common point. -/
theorem C18_unique_common_point (l o : Line K) (p : Pt K) (h : l.intersection o = .ok p) :
    l.OnLine p ∧ o.OnLine p ∧ ∀ q, l.OnLine q → o.OnLine q → q = p := by
  have hc : l.direction.cross o.direction ≠ 0 := (C18_raises_iff l o).2.2 ⟨p, h⟩
  rw [intersection_eq l o hc] at h
  cases h
  have hc' : o.direction.cross l.direction ≠ 0 := by
    intro e; apply hc; simp only [Vec.cross] at *; linear_combination -e
  have onl : l.OnLine (o.at' ((l.origin.sub o.origin).cross l.direction / o.direction.cross l.direction)) := by
    refine ⟨(o.origin.sub l.origin).cross o.direction / l.direction.cross o.direction, ?_⟩
    ext
    · simp only [at']
      rw [show l.direction.cross o.direction = - o.direction.cross l.direction by simp [Vec.cross]; ring]
      field_simp
      simp only [Vec.cross, Pt.sub]; ring
    · simp only [at']
      rw [show l.direction.cross o.direction = - o.direction.cross l.direction by simp [Vec.cross]; ring]
      field_simp
      simp only [Vec.cross, Pt.sub]; ring
  refine ⟨onl, ⟨_, rfl⟩, ?_⟩
  rintro q ⟨s, rfl⟩ ⟨t, ht⟩
  rw [ht]
  congr 1
  rw [eq_div_iff hc']
  simp only [at', Pt.mk.injEq] at ht
  simp only [Vec.cross, Pt.sub]
  linear_combination l.direction.y * (-ht.1) + l.direction.x * ht.2

/-- C18: the result does not depend on the order of the operands. -/
theorem C18_symm (l o : Line K) (p : Pt K) (h : l.intersection o = .ok p) : o.intersection l = .ok p := by
  obtain ⟨h1, h2, h3⟩ := C18_unique_common_point l o p h
  have hc : l.direction.cross o.direction ≠ 0 := (C18_raises_iff l o).2.2 ⟨p, h⟩
  have hc' : o.direction.cross l.direction ≠ 0 := by
    intro e; apply hc; simp only [Vec.cross] at *; linear_combination -e
  obtain ⟨q, hq⟩ := (C18_raises_iff o l).2.1 hc'
  obtain ⟨k1, k2, k3⟩ := C18_unique_common_point o l q hq
  rw [hq, h3 q k2 k1]

end Field

example : (⟨⟨0, 0⟩, ⟨1, 1⟩⟩ : Line ℚ).intersection ⟨⟨0, 4⟩, ⟨1, -1⟩⟩ = .ok ⟨2, 2⟩ := by
  rw [intersection_eq _ _ (by norm_num [Vec.cross])]; norm_num [at', Vec.cross, Pt.sub]
example : (⟨⟨0, 0⟩, ⟨1, 1⟩⟩ : Line ℚ).intersection ⟨⟨0, 4⟩, ⟨2, 2⟩⟩ = .error .parallelLine := by
  rw [← (C18_raises_iff _ _).1]; norm_num [Vec.cross]

/-! ### C17 -/

/-- C17: `closest` fails with `ZeroDivisionError` exactly for a zero direction. -/
theorem C17_raises_iff (l : Line ℝ) (p : Pt ℝ) :
    (l.direction = ⟨0, 0⟩ ↔ l.closest p = .error .zeroDivision) ∧
    (l.direction ≠ ⟨0, 0⟩ ↔ ∃ q, l.closest p = .ok q) := by
  by_cases h : l.direction = ⟨0, 0⟩
  · have e : l.closest p = .error .zeroDivision := by
      simp [closest, h, Vec.unit_zero, bind, Except.bind]
    simp [h, e]
  · have e : ∃ q, l.closest p = .ok q := by
      simp [closest, Vec.unit_ok h, bind, Except.bind, pure, Except.pure]
    obtain ⟨q, e⟩ := e
    simp [h, e]

/-- C17: the result is on the line, the connection is perpendicular to the direction, and it is the nearest point of
the line; a point of the line is its own closest point. -/
theorem C17_nearest (l : Line ℝ) (p q : Pt ℝ) (h : l.closest p = .ok q) :
    l.OnLine q ∧ (p.sub q).dot l.direction = 0 ∧ (∀ r, l.OnLine r → dist p q ≤ dist p r) ∧
    (l.OnLine p → q = p) := by
  have hd : l.direction ≠ ⟨0, 0⟩ := (C17_raises_iff l p).2.2 ⟨q, h⟩
  have hpos := Vec.length_pos hd
  have hsq := l.direction.length_sq
  simp only [closest, Vec.unit_ok hd, bind, Except.bind, pure, Except.pure, Except.ok.injEq] at h
  have hq : q = l.at' ((p.sub l.origin).dot l.direction / l.direction.dot l.direction) := by
    rw [← h, ← hsq]
    ext <;> simp only [Pt.addVector, Vec.mul, Vec.dot, at'] <;> field_simp
  have hdd : l.direction.dot l.direction ≠ 0 := by rw [← hsq]; positivity
  have perp : (p.sub q).dot l.direction = 0 := by
    have ht := div_mul_cancel₀ ((p.sub l.origin).dot l.direction) hdd
    rw [hq]
    generalize (p.sub l.origin).dot l.direction / l.direction.dot l.direction = t at ht
    simp only [at', Pt.sub, Vec.dot] at ht ⊢
    linear_combination -ht
  have onl : l.OnLine q := ⟨_, hq⟩
  have near : ∀ r, l.OnLine r → dist p q ≤ dist p r := by
    rintro r ⟨t, rfl⟩
    obtain ⟨s, hs⟩ := onl
    apply Real.sqrt_le_sqrt
    have e : (p.x - (l.at' t).x) ^ 2 + (p.y - (l.at' t).y) ^ 2 =
        (p.x - q.x) ^ 2 + (p.y - q.y) ^ 2 + (s - t) ^ 2 * l.direction.dot l.direction := by
      rw [hs] at perp ⊢
      simp only [at', Pt.sub, Vec.dot] at perp ⊢
      linear_combination 2 * (s - t) * perp
    rw [e]
    have : 0 ≤ (s - t) ^ 2 * l.direction.dot l.direction := by rw [← hsq]; positivity
    linarith
  refine ⟨onl, perp, near, ?_⟩
  rintro ⟨t, rfl⟩
  rw [hq]
  congr 1
  rw [div_eq_iff hdd]
  simp only [at', Pt.sub, Vec.dot]; ring

example : (⟨⟨0, 0⟩, ⟨3, 4⟩⟩ : Line ℝ).direction ≠ ⟨0, 0⟩ := by simp

/-! ### C19, C20 -/

/-- Value of `segment_intersection` after the box test, for non-parallel lines. -/
theorem segInt_eq (l o : Line ℝ) (hov : l.segmentBBox.overlaps o.segmentBBox = .ok true)
    (hc : l.direction.cross o.direction ≠ 0) :
    ∃ s t : ℝ, l.at' s = o.at' t ∧
      l.segmentIntersection o = .ok (if t < 0 ∨ t > 1 then none else if s < 0 ∨ s > 1 then none
        else some (o.at' t, s, t)) := by
  have h1 : l.direction.normal.dot o.direction ≠ 0 := by
    intro e; apply hc; simp only [Vec.normal, Vec.dot, Vec.cross] at *; linear_combination -e
  have h2 : o.direction.normal.dot l.direction ≠ 0 := by
    intro e; apply hc; simp only [Vec.normal, Vec.dot, Vec.cross] at *; linear_combination e
  set t := l.direction.normal.dot (l.origin.sub o.origin) / l.direction.normal.dot o.direction with ht
  set s := o.direction.normal.dot (o.origin.sub l.origin) / o.direction.normal.dot l.direction with hs
  have hcom : l.at' s = o.at' t := by
    have e : o.direction.normal.dot l.direction = - l.direction.normal.dot o.direction := by
      simp only [Vec.normal, Vec.dot]; ring
    rw [hs, ht, e]
    have h1' : l.direction.y * o.direction.x - l.direction.x * o.direction.y ≠ 0 := by
      intro e; apply h1; simp only [Vec.normal, Vec.dot]; linear_combination e
    ext
    · simp only [at']
      field_simp
      simp only [Vec.normal, Vec.dot, Pt.sub]; ring
    · simp only [at']
      field_simp
      simp only [Vec.normal, Vec.dot, Pt.sub]; ring
  refine ⟨s, t, hcom, ?_⟩
  have hz : ((l.at' s).sub (o.at' t)).length = 0 := by
    rw [hcom, Vec.length_eq_zero]; simp [Pt.sub]
  have hpar : l.parallel o = false := by simp [parallel, hc]
  simp only [segmentIntersection, hov, hpar, pyDiv, h1, h2, if_false, bind, Except.bind, pure, Except.pure,
    Bool.not_true, Bool.false_eq_true, ← ht, ← hs, at_addVector, hz]
  split_ifs <;> first | rfl | (exfalso; norm_num at *)

theorem segBBox_overlaps (l o : Line ℝ) : ∃ r, l.segmentBBox.overlaps o.segmentBBox = .ok r := by
  simp only [segmentBBox, BBox.ofPts, BBox.mk', BBox.overlaps]
  split_ifs <;> exact ⟨_, rfl⟩

/-- C19: soundness: both parameters are in [0,1] and the point is the point of both segments at its parameter. -/
theorem C19_sound (l o : Line ℝ) (p : Pt ℝ) (s t : ℝ) (h : l.segmentIntersection o = .ok (some (p, s, t))) :
    0 ≤ s ∧ s ≤ 1 ∧ 0 ≤ t ∧ t ≤ 1 ∧ p = l.at' s ∧ p = o.at' t := by
  obtain ⟨r, hr⟩ := segBBox_overlaps l o
  cases r with
  | false => simp [segmentIntersection, hr, bind, Except.bind, pure, Except.pure] at h
  | true =>
    by_cases hc : l.direction.cross o.direction = 0
    · simp [segmentIntersection, hr, parallel, hc, bind, Except.bind, throw, throwThe, MonadExceptOf.throw] at h
    · obtain ⟨s', t', hcom, e⟩ := segInt_eq l o hr hc
      rw [h] at e
      by_cases g1 : t' < 0 ∨ t' > 1
      · rw [if_pos g1] at e; cases e
      by_cases g2 : s' < 0 ∨ s' > 1
      · rw [if_neg g1, if_pos g2] at e; cases e
      rw [if_neg g1, if_neg g2] at e
      simp only [Except.ok.injEq, Option.some.injEq, Prod.mk.injEq] at e
      obtain ⟨rfl, rfl, rfl⟩ := e
      push Not at g1 g2
      exact ⟨g2.1, g2.2, g1.1, g1.2, hcom.symm, rfl⟩

/-- C19: the only exception is `ParallelLineError` (no assertion failure, no division by zero), and it is raised exactly
for parallel segments whose boxes overlap. -/
theorem C19_exceptions (l o : Line ℝ) (e : PyErr) :
    l.segmentIntersection o = .error e ↔
      e = .parallelLine ∧ l.direction.cross o.direction = 0 ∧ l.segmentBBox.overlaps o.segmentBBox = .ok true := by
  obtain ⟨r, hr⟩ := segBBox_overlaps l o
  cases r with
  | false => simp [segmentIntersection, hr, bind, Except.bind, pure, Except.pure]
  | true =>
    by_cases hc : l.direction.cross o.direction = 0
    · simp [segmentIntersection, hr, parallel, hc, bind, Except.bind, throw, throwThe, MonadExceptOf.throw, eq_comm]
    · obtain ⟨s', t', hcom, h⟩ := segInt_eq l o hr hc
      simp [h, hc]

/-- In one coordinate: an interior point of both intervals with the ranges not strictly overlapping forces both
intervals to be degenerate. -/
theorem interior_overlap (a u b v s t : ℝ) (hs0 : 0 < s) (hs1 : s < 1) (ht0 : 0 < t) (ht1 : t < 1)
    (h : a + s * u = b + t * v) (hno : max b (b + v) ≤ min a (a + u)) : u = 0 ∧ v = 0 := by
  have h1 := le_max_left b (b + v)
  have h2 := le_max_right b (b + v)
  have h3 := min_le_left a (a + u)
  have h4 := min_le_right a (a + u)
  have ha1 : b ≤ a := by linarith
  have ha2 : b + v ≤ a := by linarith
  have ha3 : b ≤ a + u := by linarith
  have ha4 : b + v ≤ a + u := by linarith
  -- the common value is at least max and at most min
  have e1 : (1 - s) * (a - b) + s * (a + u - b) = t * v := by linarith
  have e2 : (1 - t) * (a - b) + t * (a - (b + v)) = - (s * u) := by linarith
  have e3 : (1 - t) * (a + u - b) + t * (a + u - (b + v)) = (1 - s) * u := by linarith
  have e4 : (1 - s) * (a - (b + v)) + s * (a + u - (b + v)) = - ((1 - t) * v) := by linarith
  have p1 : 0 ≤ t * v := by rw [← e1]; nlinarith
  have p4 : 0 ≤ - ((1 - t) * v) := by rw [← e4]; nlinarith
  have p2 : 0 ≤ - (s * u) := by rw [← e2]; nlinarith
  have p3 : 0 ≤ (1 - s) * u := by rw [← e3]; nlinarith
  constructor
  · nlinarith
  · nlinarith

/-- C20: if two non-parallel segments have a common point interior to both, it is returned with its parameters. -/
theorem C20_proper_crossing_found (l o : Line ℝ) (s t : ℝ) (hc : l.direction.cross o.direction ≠ 0)
    (hs0 : 0 < s) (hs1 : s < 1) (ht0 : 0 < t) (ht1 : t < 1) (h : l.at' s = o.at' t) :
    l.segmentIntersection o = .ok (some (l.at' s, s, t)) := by
  have hx : l.origin.x + s * l.direction.x = o.origin.x + t * o.direction.x := congrArg Pt.x h
  have hy : l.origin.y + s * l.direction.y = o.origin.y + t * o.direction.y := congrArg Pt.y h
  have hov : l.segmentBBox.overlaps o.segmentBBox = .ok true := by
    simp only [segmentBBox, BBox.ofPts, BBox.mk', BBox.overlaps, Pt.addVector]
    rw [if_neg]
    rintro (g | g | g | g)
    · obtain ⟨e1, e2⟩ := interior_overlap _ _ _ _ s t hs0 hs1 ht0 ht1 hx g
      exact hc (by simp [Vec.cross, e1, e2])
    · obtain ⟨e1, e2⟩ := interior_overlap _ _ _ _ t s ht0 ht1 hs0 hs1 hx.symm g
      exact hc (by simp [Vec.cross, e1, e2])
    · obtain ⟨e1, e2⟩ := interior_overlap _ _ _ _ s t hs0 hs1 ht0 ht1 hy g
      exact hc (by simp [Vec.cross, e1, e2])
    · obtain ⟨e1, e2⟩ := interior_overlap _ _ _ _ t s ht0 ht1 hs0 hs1 hy.symm g
      exact hc (by simp [Vec.cross, e1, e2])
  obtain ⟨s', t', hcom, e⟩ := segInt_eq l o hov hc
  obtain ⟨rfl, rfl⟩ := params_unique l o hc h hcom
  rw [e, if_neg (by push Not; exact ⟨ht0.le, ht1.le⟩), if_neg (by push Not; exact ⟨hs0.le, hs1.le⟩), hcom]
where
  params_unique (l o : Line ℝ) (hc : l.direction.cross o.direction ≠ 0) {s t s' t' : ℝ}
      (h : l.at' s = o.at' t) (h' : l.at' s' = o.at' t') : s = s' ∧ t = t' := by
    simp only [at', Pt.mk.injEq] at h h'
    simp only [Vec.cross] at hc
    constructor
    · apply mul_right_cancel₀ hc
      linear_combination o.direction.y * h.1 - o.direction.x * h.2 - o.direction.y * h'.1 + o.direction.x * h'.2
    · apply mul_right_cancel₀ hc
      linear_combination l.direction.y * h.1 - l.direction.x * h.2 - l.direction.y * h'.1 + l.direction.x * h'.2

/-- C20 (exact domain): for non-parallel segments, a common point (end points included) is returned if and only if the
bounding boxes of the segments overlap with positive extent. -/
theorem C20_found_iff_boxes_overlap (l o : Line ℝ) (s t : ℝ) (hc : l.direction.cross o.direction ≠ 0)
    (hs0 : 0 ≤ s) (hs1 : s ≤ 1) (ht0 : 0 ≤ t) (ht1 : t ≤ 1) (h : l.at' s = o.at' t) :
    (l.segmentBBox.overlaps o.segmentBBox = .ok true → l.segmentIntersection o = .ok (some (l.at' s, s, t))) ∧
    (l.segmentBBox.overlaps o.segmentBBox = .ok false → l.segmentIntersection o = .ok none) := by
  constructor
  · intro hov
    obtain ⟨s', t', hcom, e⟩ := segInt_eq l o hov hc
    obtain ⟨rfl, rfl⟩ := C20_proper_crossing_found.params_unique l o hc h hcom
    rw [e, if_neg (by push Not; exact ⟨ht0, ht1⟩), if_neg (by push Not; exact ⟨hs0, hs1⟩), hcom]
  · intro hov
    simp [segmentIntersection, hov, bind, Except.bind, pure, Except.pure]

/-- C20 (stronger claim false): two perpendicular segments meeting in a T share a point, but `None` is returned. -/
theorem C20_touching_counterexample :
    ∃ l o : Line ℝ, ∃ s t : ℝ, l.direction.cross o.direction ≠ 0 ∧ 0 < s ∧ s < 1 ∧ 0 ≤ t ∧ t ≤ 1 ∧
      l.at' s = o.at' t ∧ l.segmentIntersection o = .ok none := by
  refine ⟨⟨⟨0, 0⟩, ⟨2, 0⟩⟩, ⟨⟨1, 0⟩, ⟨0, 1⟩⟩, 1 / 2, 0, by norm_num [Vec.cross], by norm_num, by norm_num, le_refl _,
    by norm_num, by norm_num [at'], ?_⟩
  have : (⟨⟨0, 0⟩, ⟨2, 0⟩⟩ : Line ℝ).segmentBBox.overlaps (⟨⟨1, 0⟩, ⟨0, 1⟩⟩ : Line ℝ).segmentBBox = .ok false := by
    norm_num [segmentBBox, BBox.ofPts, BBox.mk', BBox.overlaps, Pt.addVector]
  simp [segmentIntersection, this, bind, Except.bind, pure, Except.pure]

/-- C20: two overlapping collinear axis-parallel segments also give `None` (not `ParallelLineError`). -/
theorem C20_collinear_counterexample :
    ∃ l o : Line ℝ, l.direction.cross o.direction = 0 ∧ (∃ s t : ℝ, 0 < s ∧ s < 1 ∧ 0 < t ∧ t < 1 ∧ l.at' s = o.at' t) ∧
      l.segmentIntersection o = .ok none := by
  refine ⟨⟨⟨0, 0⟩, ⟨2, 0⟩⟩, ⟨⟨1, 0⟩, ⟨2, 0⟩⟩, by norm_num [Vec.cross],
    ⟨3 / 4, 1 / 4, by norm_num, by norm_num, by norm_num, by norm_num, by norm_num [at']⟩, ?_⟩
  have : (⟨⟨0, 0⟩, ⟨2, 0⟩⟩ : Line ℝ).segmentBBox.overlaps (⟨⟨1, 0⟩, ⟨2, 0⟩⟩ : Line ℝ).segmentBBox = .ok false := by
    norm_num [segmentBBox, BBox.ofPts, BBox.mk', BBox.overlaps, Pt.addVector]
  simp [segmentIntersection, this, bind, Except.bind, pure, Except.pure]

example : (⟨⟨0, 0⟩, ⟨2, 2⟩⟩ : Line ℝ).segmentIntersection ⟨⟨0, 2⟩, ⟨2, -2⟩⟩ = .ok (some (⟨1, 1⟩, 1 / 2, 1 / 2)) := by
  rw [C20_proper_crossing_found _ _ (1 / 2) (1 / 2) (by norm_num [Vec.cross]) (by norm_num) (by norm_num) (by norm_num)
    (by norm_num) (by norm_num [at'])]
  norm_num [at']

end X7.Line
