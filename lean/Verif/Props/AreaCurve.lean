import Verif.Lemmas.AreaCurve
import Verif.Props.Area
import Verif.Props.Approx
import Mathlib.Topology.Algebra.Order.Field
import Mathlib.Analysis.SpecificLimits.Basic

/-!
C121: the area that `polygon_area` finds for the points drawn for a closed curve, an ellipse, an arc or a circle, against the area
that the curve encloses.
-/

namespace X7.Approx
open X7.Utils (distPt sweep onCircle)
open Filter Topology

theorem segs_closes (cps : List (CP ℝ)) :
    segs true cps = [] ∨ ∃ s ss, segs true cps = s :: ss ∧ ((s :: ss).getLast (by simp)).d = s.a := by
  cases cps with
  | nil => left; rfl
  | cons p l =>
    right
    have e : segs true (p :: l) = List.zipWith seg (p :: l) (l ++ [p]) := by
      simp [segs, closedSegs]
    obtain ⟨q, l', hq⟩ : ∃ q l', l ++ [p] = q :: l' := by
      cases l with
      | nil => exact ⟨p, [], rfl⟩
      | cons q l => exact ⟨q, l ++ [p], rfl⟩
    have hlen : (q :: l').length = l.length + 1 := by rw [← hq]; simp
    have e2 : segs true (p :: l) = seg p q :: List.zipWith seg l l' := by rw [e, hq]; rfl
    refine ⟨_, _, e2, ?_⟩
    have : (List.zipWith seg (p :: l) (l ++ [p])).getLast? = some (seg ((p :: l).getLast (by simp)) p) := by
      rw [List.getLast?_eq_getElem?, List.getElem?_zipWith]
      simp [List.getLast_eq_getElem]
    rw [← e, e2, List.getLast?_eq_getLast_of_ne_nil (by simp)] at this
    rw [Option.some.inj this]
    rfl

theorem area_path (cps : List (CP ℝ)) {n : ℕ} (hn : 1 ≤ n) :
    polygonArea (pathOf n (segs true cps)) =
      enclosed (segs true cps) - ((segs true cps).map err2).sum / n ^ 2 + ((segs true cps).map err4).sum / n ^ 4 := by
  rcases segs_closes cps with h | ⟨s, ss, h, hc⟩
  · rw [h]; simp [pathOf, enclosed, polygonArea_eq]
  · have hj := segs_join true cps
    rw [h] at hj ⊢
    exact pathOf_area hn s ss hj hc

theorem area_mapped (m : Mat3 ℝ) (ps : List (Pt ℝ)) : polygonArea (ps.map m.apply) = det2 m * polygonArea ps :=
  C07_affine m.a m.b m.d m.e m.c m.f ps

/-- **C121.** What `polygon_area` finds for the points of a closed `bez_path`: the area the curve encloses, less a term that goes with
the square of the step and a term that goes with its fourth power, all multiplied by the determinant of the transform. -/
theorem C121_bez_path (m : Mat3 ℝ) (cps : List (CP ℝ)) (steps : ℕ) (hs : 1 ≤ steps) :
    ∃ ps, bezPath m.apply cps true steps = xyFlatten ps ∧
      polygonArea ps = det2 m * (enclosed (segs true cps) - ((segs true cps).map err2).sum / steps ^ 2 +
        ((segs true cps).map err4).sum / steps ^ 4) := by
  refine ⟨_, bezPath_eq m.apply cps true steps hs, ?_⟩
  rw [Elem.pathOf_map, area_mapped, area_path cps hs]

theorem area_tendsto (cps : List (CP ℝ)) :
    Tendsto (fun n => polygonArea (pathOf n (segs true cps))) atTop (𝓝 (enclosed (segs true cps))) := by
  have h2 : Tendsto (fun n : ℕ => ((segs true cps).map err2).sum / (n : ℝ) ^ 2) atTop (𝓝 0) :=
    tendsto_const_nhds.div_atTop ((tendsto_pow_atTop (by norm_num)).comp tendsto_natCast_atTop_atTop)
  have h4 : Tendsto (fun n : ℕ => ((segs true cps).map err4).sum / (n : ℝ) ^ 4) atTop (𝓝 0) :=
    tendsto_const_nhds.div_atTop ((tendsto_pow_atTop (by norm_num)).comp tendsto_natCast_atTop_atTop)
  have := (tendsto_const_nhds (x := enclosed (segs true cps)).sub h2).add h4
  rw [sub_zero, add_zero] at this
  refine this.congr' ?_
  filter_upwards [eventually_ge_atTop 1] with n hn
  exact (area_path cps hn).symm

/-- With enough steps the area of the points is as close as one likes to the area that the transformed curve encloses. -/
theorem C121_limit (m : Mat3 ℝ) (cps : List (CP ℝ)) (ε : ℝ) (hε : 0 < ε) :
    ∃ N : ℕ, ∀ steps ≥ N, ∃ ps, bezPath m.apply cps true steps = xyFlatten ps ∧
      |polygonArea ps - enclosed ((segs true cps).map (Poly4.map m.apply))| < ε := by
  have h := area_tendsto (cps.map (·.transformLin m.apply))
  rw [Elem.segs_transform] at h
  obtain ⟨N, hN⟩ := (Metric.tendsto_atTop.1 h) ε hε
  refine ⟨N + 1, fun steps hst => ⟨_, bezPath_eq m.apply cps true steps (by omega), ?_⟩⟩
  have := hN steps (by omega)
  rwa [Real.dist_eq] at this

/-- A transform multiplies the area that a closed curve encloses by its determinant. -/
theorem C121_transform (m : Mat3 ℝ) (cps : List (CP ℝ)) :
    enclosed ((segs true cps).map (Poly4.map m.apply)) = det2 m * enclosed (segs true cps) := by
  have h := area_tendsto (cps.map (·.transformLin m.apply))
  rw [Elem.segs_transform] at h
  have h2 := (area_tendsto cps).const_mul (det2 m)
  refine tendsto_nhds_unique h (h2.congr fun n => ?_)
  rw [Elem.pathOf_map, area_mapped]

/-! ### Curves and ellipses as drawn -/

/-- What is drawn for a closed curve element has the area of the curve, but for the error of its number of steps. -/
theorem C121_curve (cfg : DCfg) (h : Hdr) (cps : List (CP ℝ)) (m : Mat3 ℝ) (n : ℕ) (hc : h.closed = true)
    (hn : n = max 1 (if cfg.showCps then 10 else cfg.pointsPerCurve)) :
    ∃ pts, Elem.drawn cfg (.curve h cps) m = .ok [⟨h.pb, true, pts⟩] ∧
      polygonArea pts = det2 (m.mul h.xf) * (enclosed (segs true cps) - ((segs true cps).map err2).sum / n ^ 2 +
        ((segs true cps).map err4).sum / n ^ 4) := by
  rw [Elem.drawn_basic cfg _ (by simp only [Elem.Basic])]
  simp only [Elem.outline, Except.map, Elem.hdr, hc]
  refine ⟨_, rfl, ?_⟩
  rw [← hn, area_mapped, area_path cps (by rw [hn]; exact le_max_left _ _)]

theorem ellipse_area (c : Pt ℝ) (rx ry : ℝ) :
    enclosed (segs true (makeEllipseCps c rx ry)) = -(rx * ry * (2 + 12 / 5 * bez90 - 3 / 5 * bez90 ^ 2)) ∧
    ((segs true (makeEllipseCps c rx ry)).map err2).sum = -(rx * ry * (4 * bez90 - 3 * bez90 ^ 2)) ∧
    ((segs true (makeEllipseCps c rx ry)).map err4).sum = -(rx * ry * (8 / 5 * bez90 - 12 / 5 * bez90 ^ 2)) := by
  rw [ellipse_segs]
  refine ⟨?_, ?_, ?_⟩ <;>
    simp only [enclosed, List.map_cons, List.map_nil, List.sum_cons, List.sum_nil, swept_eq, err2, err4, cr, Poly4.c1, Poly4.c2,
      Poly4.c3, quarter, Pt.addVector, Vec.mul] <;> ring

/-- The curve used for an ellipse encloses the area of the ellipse to 0.03 percent. It runs clockwise (in coordinates with y upwards),
so that the signed area is negative. -/
theorem C121_ellipse_curve (c : Pt ℝ) (rx ry : ℝ) :
    |enclosed (segs true (makeEllipseCps c rx ry)) + Real.pi * (rx * ry)| ≤ 3 / 10000 * (Real.pi * |rx * ry|) := by
  rw [(ellipse_area c rx ry).1]
  obtain ⟨s1, s2⟩ := sqrt2_bounds
  have hk : bez90 = 4 / 3 * (√2 - 1) := bez90_eq
  have p1 := Real.pi_gt_d6
  have p2 := Real.pi_lt_d6
  have k1 : 0.55228 < bez90 := by rw [hk]; linarith
  have k2 : bez90 < 0.552294 := by rw [hk]; linarith
  have e : -(rx * ry * (2 + 12 / 5 * bez90 - 3 / 5 * bez90 ^ 2)) + Real.pi * (rx * ry) =
      (rx * ry) * (Real.pi - (2 + 12 / 5 * bez90 - 3 / 5 * bez90 ^ 2)) := by ring
  rw [e, abs_mul, show 3 / 10000 * (Real.pi * |rx * ry|) = |rx * ry| * (3 / 10000 * Real.pi) by ring]
  apply mul_le_mul_of_nonneg_left _ (abs_nonneg _)
  rw [abs_le]
  constructor <;> nlinarith

/-- What a context draws for an ellipse has the area of the ellipse, taken through the transforms, to 0.1 percent. -/
theorem C121_ellipse (cfg : DCfg) (h : Hdr) (p1 p2 : Pt ℝ) (m : Mat3 ℝ) :
    ∃ pts, Elem.drawn cfg (.ellipse h p1 p2) m = .ok [⟨h.pb, h.closed, pts⟩] ∧
      |polygonArea pts + det2 (m.mul h.xf) * (Real.pi * (|p1.x - p2.x| / 2 * (|p1.y - p2.y| / 2)))| ≤
        1 / 1000 * |det2 (m.mul h.xf) * (Real.pi * (|p1.x - p2.x| / 2 * (|p1.y - p2.y| / 2)))| := by
  rw [Elem.drawn_basic cfg _ (by simp only [Elem.Basic])]
  simp only [Elem.outline, makeEllipseP1P2_eq, Except.map, Elem.hdr]
  refine ⟨_, rfl, ?_⟩
  rw [area_mapped, area_path _ (by norm_num)]
  obtain ⟨e1, e2, e4⟩ := ellipse_area ⟨(p1.x + p2.x) / 2, (p1.y + p2.y) / 2⟩ (|p1.x - p2.x| / 2) (|p1.y - p2.y| / 2)
  rw [e1, e2, e4]
  generalize |p1.x - p2.x| / 2 = a
  generalize |p1.y - p2.y| / 2 = b
  generalize det2 (m.mul h.xf) = D
  obtain ⟨s1, s2⟩ := sqrt2_bounds
  have hk : bez90 = 4 / 3 * (√2 - 1) := bez90_eq
  have q1 := Real.pi_gt_d4
  have q2 := Real.pi_lt_d4
  have k1 : 0.55228 < bez90 := by rw [hk]; linarith
  have k2 : bez90 < 0.5523 := by rw [hk]; linarith
  push_cast
  have e : D * (-(a * b * (2 + 12 / 5 * bez90 - 3 / 5 * bez90 ^ 2)) - -(a * b * (4 * bez90 - 3 * bez90 ^ 2)) / 20 ^ 2 +
        -(a * b * (8 / 5 * bez90 - 12 / 5 * bez90 ^ 2)) / 20 ^ 4) + D * (Real.pi * (a * b)) =
      D * (a * b) * (Real.pi - (2 + 12 / 5 * bez90 - 3 / 5 * bez90 ^ 2) + (4 * bez90 - 3 * bez90 ^ 2) / 400 -
        (8 / 5 * bez90 - 12 / 5 * bez90 ^ 2) / 160000) := by ring
  have f : 1 / 1000 * |D * (Real.pi * (a * b))| = |D * (a * b)| * (1 / 1000 * Real.pi) := by
    rw [show D * (Real.pi * (a * b)) = D * (a * b) * Real.pi by ring, abs_mul _ Real.pi, abs_of_pos Real.pi_pos]; ring
  rw [e, f, abs_mul]
  apply mul_le_mul_of_nonneg_left _ (abs_nonneg _)
  rw [abs_le]
  constructor <;> nlinarith

/-! ### Arcs and circles -/

theorem sweep_area0 (r a w : ℝ) (n : ℕ) (hn : 1 ≤ n) :
    polygonArea (sweep ⟨0, 0⟩ r a w n) = r ^ 2 / 2 * (n * Real.sin (radians (w / n)) - Real.sin (radians w)) := by
  have hp : (n : ℝ) ≠ 0 := by exact_mod_cast (by omega : n ≠ 0)
  have hcr : ∀ z d, crs (onCircle ⟨0, 0⟩ r z) (onCircle ⟨0, 0⟩ r (z + d)) = r ^ 2 * Real.sin (radians d) := by
    intro z d
    have hr : radians (z + d) = radians z + radians d := by simp only [radians]; ring
    simp only [crs, onCircle, hr, Real.cos_add, Real.sin_add]
    linear_combination r ^ 2 * Real.sin (radians d) * Real.sin_sq_add_cos_sq (radians z)
  have hch : chain (sweep ⟨0, 0⟩ r a w n) = n * (r ^ 2 * Real.sin (radians (w / n))) := by
    rw [sweep, chain_range]
    have : (fun (i : ℕ) => crs (onCircle ⟨0, 0⟩ r (a + w * ((i : ℝ) / n))) (onCircle ⟨0, 0⟩ r (a + w * (((i + 1 : ℕ) : ℝ) / n)))) =
        fun _ => r ^ 2 * Real.sin (radians (w / n)) := by
      funext i
      rw [← hcr (a + w * ((i : ℝ) / n)) (w / n)]
      congr 2
      push_cast
      ring
    rw [this]
    simp
  obtain ⟨l, hl⟩ : ∃ l, sweep ⟨0, 0⟩ r a w n = onCircle ⟨0, 0⟩ r a :: l := by
    refine ⟨_, by rw [sweep, List.range_succ_eq_map, List.map_cons]; congr 1; simp⟩
  obtain ⟨p, hp'⟩ : ∃ p, sweep ⟨0, 0⟩ r a w n = p ++ [onCircle ⟨0, 0⟩ r (a + w)] := by
    refine ⟨_, by rw [sweep, List.range_succ, List.map_append]; congr 1; simp [div_self hp]⟩
  have hback := hcr (a + w) (-w)
  rw [add_neg_cancel_right] at hback
  have : polygonArea (sweep ⟨0, 0⟩ r a w n) =
      (chain (sweep ⟨0, 0⟩ r a w n) + crs (onCircle ⟨0, 0⟩ r (a + w)) (onCircle ⟨0, 0⟩ r a)) / 2 := by
    rw [hl, polygonArea_cons, ← hl, hp', chain_glue]
    simp [chain]
  have hneg : radians (-w) = -radians w := by simp only [radians]; ring
  rw [this, hch, hback, hneg, Real.sin_neg]
  ring

/-- The area between the points of an arc and the chord that closes it: where the circular segment itself has `r²/2 (w - sin w)`,
the angle is replaced by `n` times the sine of the step. -/
theorem C121_sweep (c : Pt ℝ) (r a w : ℝ) (n : ℕ) (hn : 1 ≤ n) :
    polygonArea (sweep c r a w n) = r ^ 2 / 2 * (n * Real.sin (radians (w / n)) - Real.sin (radians w)) := by
  have e : sweep c r a w n = (sweep ⟨0, 0⟩ r a w n).map fun p => p.addVector ⟨c.x, c.y⟩ := by
    simp only [sweep, List.map_map]
    congr 1
    funext i
    ext <;> simp [onCircle, Pt.addVector, add_comm]
  rw [e, C07_translate, sweep_area0 r a w n hn]

/-- What `arc` returns, closed by its chord: `w` is the angle from the start to the end angle, `n` the number of steps. -/
theorem C121_arc (r sa ea : ℝ) (c : Pt ℝ) (steps : ℤ) (dir : Utils.Dir) (hs : steps ≠ 0) :
    ∃ (w : ℝ) (n : ℕ), Utils.SameAngle (sa + w) ea ∧ 0 < n ∧ (0 ≤ steps → (n : ℤ) = steps) ∧ (steps < 0 → |w / n| ≤ 1) ∧
      polygonArea (Utils.arc r sa ea c steps dir) =
        r ^ 2 / 2 * (n * Real.sin (radians (w / n)) - Real.sin (radians w)) := by
  obtain ⟨a, w, n, ⟨k, hk⟩, ⟨k', hk'⟩, -, h4, h5, h6, h⟩ := Utils.C52_arc r sa ea c steps dir hs
  refine ⟨w, n, ⟨k' - k, ?_⟩, h4, h5, fun hn => (h6 hn).1, by rw [h]; exact C121_sweep c r a w n h4⟩
  push_cast
  linarith

/-- The points of a circle enclose its area, less at most 0.006 percent. -/
theorem C121_circle (r : ℝ) (c : Pt ℝ) :
    polygonArea (Utils.circle r c) = 180 * r ^ 2 * Real.sin (Real.pi / 180) ∧
    (1 - 6 / 100000) * (Real.pi * r ^ 2) ≤ polygonArea (Utils.circle r c) ∧
    polygonArea (Utils.circle r c) ≤ Real.pi * r ^ 2 := by
  have e : Utils.circle r c = sweep c r 0 360 360 := by
    rw [(Utils.C52_circle r c).1, sweep]
    congr 1
    funext i
    congr 1
    push_cast
    ring
  have h : polygonArea (Utils.circle r c) = 180 * r ^ 2 * Real.sin (Real.pi / 180) := by
    rw [e, C121_sweep c r 0 360 360 (by norm_num)]
    have h1 : radians (360 / (360 : ℕ)) = Real.pi / 180 := by simp only [radians]; push_cast; ring
    have h2 : radians 360 = 2 * Real.pi := by simp only [radians]; ring
    rw [h1, h2, Real.sin_two_pi]
    push_cast
    ring
  have p1 := Real.pi_gt_d4
  have p2 := Real.pi_lt_d4
  have r0 := sq_nonneg r
  have s1 := (Real.sin_lt (x := Real.pi / 180) (by positivity)).le
  have s2 := (Real.sin_gt_sub_cube (x := Real.pi / 180) (by positivity)).le
  have hx : (Real.pi / 180) ^ 3 / 6 ≤ Real.pi / 180 * (6 / 100000) := by
    have : (Real.pi / 180) ^ 2 ≤ 36 / 100000 := by nlinarith
    nlinarith [Real.pi_pos]
  refine ⟨h, ?_, ?_⟩
  · rw [h]
    have := mul_le_mul_of_nonneg_left (s2.trans' (by linarith : Real.pi / 180 - Real.pi / 180 * (6 / 100000) ≤ _))
      (by positivity : 0 ≤ 180 * r ^ 2)
    linarith
  · rw [h]
    have := mul_le_mul_of_nonneg_left s1 (by positivity : 0 ≤ 180 * r ^ 2)
    linarith

/-! ### Cases -/

/-- A square with its corners as control points: no error, the area is one. -/
example : enclosed [⟨⟨0, 0⟩, ⟨1 / 3, 0⟩, ⟨2 / 3, 0⟩, ⟨1, 0⟩⟩, ⟨⟨1, 0⟩, ⟨1, 1 / 3⟩, ⟨1, 2 / 3⟩, ⟨1, 1⟩⟩,
    ⟨⟨1, 1⟩, ⟨2 / 3, 1⟩, ⟨1 / 3, 1⟩, ⟨0, 1⟩⟩, ⟨⟨0, 1⟩, ⟨0, 2 / 3⟩, ⟨0, 1 / 3⟩, ⟨0, 0⟩⟩] = 1 := by
  simp only [enclosed, List.map_cons, List.map_nil, List.sum_cons, List.sum_nil, swept_eq, cr, Poly4.c1, Poly4.c2, Poly4.c3]
  norm_num

/-- A curve on which the error does not vanish. -/
example : err2 ⟨⟨0, 0⟩, ⟨1, 0⟩, ⟨1, 1⟩, ⟨0, 1⟩⟩ = 1 ∧ err4 ⟨⟨0, 0⟩, ⟨1, 0⟩, ⟨1, 1⟩, ⟨0, 1⟩⟩ = 2 / 5 := by
  simp only [err2, err4, cr, Poly4.c1, Poly4.c2, Poly4.c3]
  norm_num

end X7.Approx
