import Verif.Lemmas.Approx
import Verif.Props.Shapes
import Verif.Props.Utils
import Verif.Model.Elem
import Mathlib.Analysis.Real.Pi.Bounds
import Mathlib.Analysis.SpecialFunctions.Trigonometric.Bounds

/-!
C120: what is drawn for a curve, a rounded rectangle, an ellipse, an arc or a circle is as close to the curve that is meant as the
number of steps promises.
-/

namespace X7.Approx
open X7.Utils (distPt sweep onCircle)

theorem bend_scaled (m : Mat3 ℝ) {L M : ℝ} (hL : ∀ p q, distPt (m.apply p) (m.apply q) ≤ L * distPt p q) (L0 : 0 ≤ L)
    (s : Poly4 ℝ) (hM : bend s ≤ M) : bend (s.map m.apply) ≤ L * M := by
  have h := max_le_iff.1 hM
  have h1 := hL ⟨s.a.x - 2 * s.b.x + s.c.x, s.a.y - 2 * s.b.y + s.c.y⟩ ⟨0, 0⟩
  have h2 := hL ⟨s.b.x - 2 * s.c.x + s.d.x, s.b.y - 2 * s.c.y + s.d.y⟩ ⟨0, 0⟩
  simp only [distPt, sub_zero] at h1 h2
  refine max_le (le_trans (le_of_eq ?_) (h1.trans (mul_le_mul_of_nonneg_left h.1 L0)))
    (le_trans (le_of_eq ?_) (h2.trans (mul_le_mul_of_nonneg_left h.2 L0))) <;>
  · congr 1
    simp only [Poly4.map, Mat3.apply]
    ring

/-- **C120.** The points that `bez_path` returns, joined by straight lines, and the curve through the control points, transformed,
are at most `3/4 * L * M / steps²` apart, seen from both: `M` bounds how much a segment bends, `L` how much the transform
magnifies. -/
theorem C120_bez_path (m : Mat3 ℝ) (cps : List (CP ℝ)) (closed : Bool) (steps : ℕ) (hs : 1 ≤ steps) (L M : ℝ) (L0 : 0 ≤ L)
    (hL : ∀ p q, distPt (m.apply p) (m.apply q) ≤ L * distPt p q) (hM : ∀ s ∈ segs closed cps, bend s ≤ M) :
    ∃ ps, bezPath m.apply cps closed steps = xyFlatten ps ∧
      Close (3 / 4 * (L * M) / steps ^ 2) (m.apply '' curveSet closed cps) (joined ps) := by
  refine ⟨_, bezPath_eq m.apply cps closed steps hs, ?_⟩
  rw [← traced_map]
  apply pathOf_close hs _ (segs_joins closed cps _)
  intro s hs'
  obtain ⟨x, hx, rfl⟩ := List.mem_map.1 hs'
  exact bend_scaled m hL L0 x (hM x hx)

/-- Any curve is approximated as well as one likes when the number of steps is large enough. -/
theorem C120_limit (m : Mat3 ℝ) (cps : List (CP ℝ)) (closed : Bool) (ε : ℝ) (hε : 0 < ε) :
    ∃ N : ℕ, ∀ steps ≥ N, ∃ ps, bezPath m.apply cps closed steps = xyFlatten ps ∧
      Close ε (m.apply '' curveSet closed cps) (joined ps) := by
  obtain ⟨M, hM⟩ : ∃ M, ∀ s ∈ (segs closed cps).map (Poly4.map m.apply), bend s ≤ M := by
    induction (segs closed cps).map (Poly4.map m.apply) with
    | nil => exact ⟨0, by simp⟩
    | cons x l ih =>
      obtain ⟨M, hM⟩ := ih
      refine ⟨max (bend x) M, ?_⟩
      intro s hs
      rcases List.mem_cons.1 hs with rfl | hs
      · exact le_max_left _ _
      · exact (hM s hs).trans (le_max_right _ _)
  obtain ⟨N, hN⟩ := exists_nat_gt (3 / 4 * |M| / ε)
  refine ⟨N + 1, fun steps hst => ⟨_, bezPath_eq m.apply cps closed steps (by omega), ?_⟩⟩
  have h1 : (N : ℝ) + 1 ≤ steps := by exact_mod_cast hst
  have h0 : (0 : ℝ) ≤ N := Nat.cast_nonneg N
  have hb : 3 / 4 * M / (steps : ℝ) ^ 2 ≤ ε := by
    rw [div_lt_iff₀ hε] at hN
    have hsp : (0 : ℝ) < steps := by linarith
    rw [div_le_iff₀ (by positivity)]
    have hsq : (N : ℝ) ≤ (steps : ℝ) ^ 2 := by nlinarith
    have := mul_le_mul_of_nonneg_right hsq hε.le
    linarith [le_abs_self M]
  have hc := pathOf_close (by omega : 1 ≤ steps) _ (segs_joins closed cps m.apply) hM
  rw [← traced_map]
  exact ⟨fun p hp => (hc.1 p hp).imp fun _ h => ⟨h.1, h.2.trans hb⟩, fun p hp => (hc.2 p hp).imp fun _ h => ⟨h.1, h.2.trans hb⟩⟩

/-- The bound cannot be improved: for an arch of height `3/4 * h` drawn in one step the curve comes no closer to the line than the
bound says. -/
theorem C120_sharp (h : ℝ) (hh : 0 ≤ h) :
    let cps : List (CP ℝ) := [⟨⟨0, 0⟩, ⟨0, 0⟩, ⟨1 / 3, h⟩, "smooth"⟩, ⟨⟨1, 0⟩, ⟨-1 / 3, h⟩, ⟨0, 0⟩, "smooth"⟩]
    (∀ s ∈ segs false cps, bend s = h) ∧
    ∃ ps, bezPath id cps false 1 = xyFlatten ps ∧
      ∃ q ∈ curveSet false cps, ∀ p ∈ joined ps, 3 / 4 * h ≤ distPt q p := by
  intro cps
  have hseg : segs false cps = [⟨⟨0, 0⟩, ⟨1 / 3, h⟩, ⟨2 / 3, h⟩, ⟨1, 0⟩⟩] := by
    simp [segs, openSegs, cps, seg]
    norm_num
  refine ⟨?_, _, bezPath_eq id cps false 1 le_rfl, ⟨1 / 2, 3 / 4 * h⟩, ?_, ?_⟩
  · intro s hs
    rw [hseg] at hs
    obtain rfl := List.mem_singleton.1 hs
    simp only [bend]
    rw [show (0 - 2 * (1 / 3) + 2 / 3 : ℝ) ^ 2 + (0 - 2 * h + h) ^ 2 = h ^ 2 by ring,
      show (1 / 3 - 2 * (2 / 3) + 1 : ℝ) ^ 2 + (h - 2 * h + 0) ^ 2 = h ^ 2 by ring, Real.sqrt_sq hh, max_self]
  · refine ⟨_, by rw [hseg]; exact List.mem_singleton.2 rfl, 1 / 2, by norm_num, by norm_num, ?_⟩
    simp only [Poly4.at', bern]
    ext <;> norm_num <;> ring
  · rw [hseg]
    rintro p ⟨i, a, b, ha, hb, v, v0, v1, rfl⟩
    simp only [List.map_cons, List.map_nil, pathOf, List.flatMap_nil, List.append_nil] at ha hb
    have hi : i = 0 := by
      have := (List.getElem?_eq_some_iff.1 hb).1
      simp at this
      omega
    subst hi
    simp [List.range_succ, Poly4.map, Poly4.at', bern] at ha hb
    subst ha hb
    simp only [distPt, between]
    apply Real.le_sqrt_of_sq_le
    nlinarith [sq_nonneg (1 / 2 - v)]

/-- What a context draws for a curve element is as close to the curve in the element's coordinates, taken through the element's
transform and the context's, as the number of points per curve promises. -/
theorem C120_curve (cfg : DCfg) (h : Hdr) (cps : List (CP ℝ)) (m : Mat3 ℝ) (n : ℕ)
    (hn : n = max 1 (if cfg.showCps then 10 else cfg.pointsPerCurve)) (L M : ℝ) (L0 : 0 ≤ L)
    (hL : ∀ p q, distPt ((m.mul h.xf).apply p) ((m.mul h.xf).apply q) ≤ L * distPt p q)
    (hM : ∀ s ∈ segs h.closed cps, bend s ≤ M) :
    ∃ pts, Elem.drawn cfg (.curve h cps) m = .ok [⟨h.pb, h.closed, pts⟩] ∧
      Close (3 / 4 * (L * M) / n ^ 2) ((m.mul h.xf).apply '' curveSet h.closed cps) (joined pts) := by
  rw [Elem.drawn_basic cfg _ (by simp only [Elem.Basic])]
  refine ⟨_, rfl, ?_⟩
  rw [← hn, ← Elem.pathOf_map, ← traced_map]
  have h1 : 1 ≤ n := by rw [hn]; exact le_max_left _ _
  apply pathOf_close h1 _ (segs_joins h.closed cps _)
  intro s hs'
  obtain ⟨x, hx, rfl⟩ := List.mem_map.1 hs'
  exact bend_scaled _ hL L0 x (hM x hx)

/-- What a context draws for a rounded rectangle is that close to the curve through its control points: twenty steps a segment. -/
theorem C120_rounded (cfg : DCfg) (h : Hdr) (p1 p2 : Pt ℝ) (r : ℝ) (cps : List (CP ℝ)) (m : Mat3 ℝ)
    (hc : makeRoundedRect p1 p2 r = .ok cps) (L M : ℝ) (L0 : 0 ≤ L)
    (hL : ∀ p q, distPt ((m.mul h.xf).apply p) ((m.mul h.xf).apply q) ≤ L * distPt p q)
    (hM : ∀ s ∈ segs true cps, bend s ≤ M) :
    ∃ pts, Elem.drawn cfg (.rrect h p1 p2 r) m = .ok [⟨h.pb, h.closed, pts⟩] ∧
      Close (3 / 1600 * (L * M)) ((m.mul h.xf).apply '' curveSet true cps) (joined pts) := by
  rw [Elem.drawn_basic cfg _ (by simp only [Elem.Basic])]
  simp only [Elem.outline, hc, Except.map, Elem.hdr]
  refine ⟨_, rfl, ?_⟩
  rw [← Elem.pathOf_map, ← traced_map]
  have := pathOf_close (n := 20) (by norm_num) _ (segs_joins true cps (m.mul h.xf).apply) (M := L * M) (by
    intro s hs'
    obtain ⟨x, hx, rfl⟩ := List.mem_map.1 hs'
    exact bend_scaled _ hL L0 x (hM x hx))
  convert this using 1
  push_cast
  ring

/-! ### Ellipses -/

theorem unit_chord {a h v : ℝ} (a0 : 0 ≤ a) (h0 : 0 ≤ h) (ah : a + h ≤ 1) (v0 : 0 ≤ v) (v1 : v ≤ 1) (h20 : h ≤ 1 / 20) :
    (999 / 1000) ^ 2 ≤ (quarterX a + v * (quarterX (a + h) - quarterX a)) ^ 2 + (quarterY a + v * (quarterY (a + h) - quarterY a)) ^ 2 ∧
    (quarterX a + v * (quarterX (a + h) - quarterX a)) ^ 2 + (quarterY a + v * (quarterY (a + h) - quarterY a)) ^ 2 ≤
      (1 + 3 / 10000) ^ 2 := by
  constructor
  · have vh0 := mul_nonneg v0 h0
    have vh1 := mul_le_mul_of_nonneg_right v1 h0
    obtain ⟨b1, -⟩ := quarter_bounds (a + v * h) (by linarith) (by linarith)
    have hb : bend (quarter ⟨0, 0⟩ ⟨1, 0⟩ ⟨0, 1⟩) ≤ 1 / 2 := by
      obtain ⟨s1, s2⟩ := sqrt2_bounds
      have hk : bez90 = 4 / 3 * (√2 - 1) := bez90_eq
      refine max_le ?_ ?_ <;> rw [Real.sqrt_le_iff] <;> refine ⟨by norm_num, ?_⟩ <;>
        simp only [quarter, Pt.addVector, Vec.mul] <;> nlinarith
    have hc := chord_close (quarter ⟨0, 0⟩ ⟨1, 0⟩ ⟨0, 1⟩) a0 h0 ah v0 v1 hb
    rw [distPt, Real.sqrt_le_iff] at hc
    simp only [quarter_at, between, mul_one, mul_zero, zero_add, add_zero] at hc
    have hh : h ^ 2 ≤ 1 / 400 := by nlinarith
    have hd : (quarterX (a + v * h) - (quarterX a + v * (quarterX (a + h) - quarterX a))) ^ 2 +
        (quarterY (a + v * h) - (quarterY a + v * (quarterY (a + h) - quarterY a))) ^ 2 ≤ (1 / 1000) ^ 2 :=
      hc.2.trans (pow_le_pow_left₀ hc.1 (by linarith) 2)
    generalize quarterX (a + v * h) = x at *
    generalize quarterY (a + v * h) = y at *
    generalize quarterX a + v * (quarterX (a + h) - quarterX a) = X at *
    generalize quarterY a + v * (quarterY (a + h) - quarterY a) = Y at *
    by_contra hcon
    push Not at hcon
    have c1 : (x * X + y * Y) ^ 2 ≤ (x ^ 2 + y ^ 2) * (X ^ 2 + Y ^ 2) := by nlinarith [sq_nonneg (x * Y - y * X)]
    have e : x ^ 2 + y ^ 2 + (X ^ 2 + Y ^ 2) - 2 * (x * X + y * Y) ≤ (1 / 1000) ^ 2 := by linarith
    have hR : √(x ^ 2 + y ^ 2) ^ 2 = x ^ 2 + y ^ 2 := Real.sq_sqrt (by positivity)
    have hS : √(X ^ 2 + Y ^ 2) ^ 2 = X ^ 2 + Y ^ 2 := Real.sq_sqrt (by positivity)
    have hR0 := Real.sqrt_nonneg (x ^ 2 + y ^ 2)
    have hS0 := Real.sqrt_nonneg (X ^ 2 + Y ^ 2)
    have c2 : x * X + y * Y ≤ √(x ^ 2 + y ^ 2) * √(X ^ 2 + Y ^ 2) := by
      apply le_of_sq_le_sq _ (by positivity)
      rw [mul_pow, hR, hS]; exact c1
    rw [← hR] at b1 e
    rw [← hS] at hcon e
    generalize √(x ^ 2 + y ^ 2) = R at *
    generalize √(X ^ 2 + Y ^ 2) = S at *
    have R1 : 1 ≤ R := by nlinarith
    have S1 : S < 999 / 1000 := by nlinarith
    nlinarith
  · obtain ⟨-, b1⟩ := quarter_bounds a a0 (by linarith)
    obtain ⟨-, b2⟩ := quarter_bounds (a + h) (by linarith) ah
    have := mix_le v0 v1 b1 b2
    convert this using 1
    ring

/-- What a context draws for an ellipse, in the ellipse's own coordinates, is nowhere further inside it than a tenth of a percent and
nowhere further outside it than 0.03 percent. -/
theorem C120_ellipse (cfg : DCfg) (h : Hdr) (p1 p2 : Pt ℝ) (m : Mat3 ℝ) (hx : p1.x ≠ p2.x) (hy : p1.y ≠ p2.y) :
    ∃ pts, Elem.drawn cfg (.ellipse h p1 p2) m = .ok [⟨h.pb, h.closed, pts.map (m.mul h.xf).apply⟩] ∧
      ∀ q ∈ joined pts, 999 / 1000 ≤ ellipseRadius ⟨(p1.x + p2.x) / 2, (p1.y + p2.y) / 2⟩ (|p1.x - p2.x| / 2) (|p1.y - p2.y| / 2) q ∧
        ellipseRadius ⟨(p1.x + p2.x) / 2, (p1.y + p2.y) / 2⟩ (|p1.x - p2.x| / 2) (|p1.y - p2.y| / 2) q ≤ 1 + 3 / 10000 := by
  rw [Elem.drawn_basic cfg _ (by simp only [Elem.Basic])]
  simp only [Elem.outline, makeEllipseP1P2_eq, Except.map]
  refine ⟨_, rfl, ?_⟩
  have rx : |p1.x - p2.x| / 2 ≠ 0 := by
    have := abs_pos.2 (sub_ne_zero.2 hx); positivity
  have ry : |p1.y - p2.y| / 2 ≠ 0 := by
    have := abs_pos.2 (sub_ne_zero.2 hy); positivity
  generalize |p1.x - p2.x| / 2 = a at *
  generalize |p1.y - p2.y| / 2 = b at *
  generalize (⟨(p1.x + p2.x) / 2, (p1.y + p2.y) / 2⟩ : Pt ℝ) = c
  rintro q ⟨j, p, p', hp1, hp2, v, v0, v1, rfl⟩
  obtain ⟨s, hs, i, hi, rfl, rfl⟩ := pathOf_line (by norm_num : 1 ≤ 20) _ (segs_join true _) hp1 hp2
  have hi' : ((i : ℝ)) / (20 : ℕ) + 1 / (20 : ℕ) ≤ 1 := by
    rw [← add_div, div_le_one (by norm_num)]; exact_mod_cast hi
  obtain ⟨u1, u2⟩ := unit_chord (a := (i : ℝ) / (20 : ℕ)) (h := 1 / (20 : ℕ)) (by positivity) (by positivity) hi' v0 v1 (by norm_num)
  have key : ∀ z w : ℝ,
      (((between (s.at' z) (s.at' w) v).x - c.x) / a) ^ 2 + (((between (s.at' z) (s.at' w) v).y - c.y) / b) ^ 2 =
        (quarterX z + v * (quarterX w - quarterX z)) ^ 2 + (quarterY z + v * (quarterY w - quarterY z)) ^ 2 := by
    intro z w
    rw [ellipse_segs] at hs
    simp only [List.mem_cons, List.not_mem_nil, or_false] at hs
    rcases hs with rfl | rfl | rfl | rfl <;> simp only [between, quarter_at] <;> field_simp <;> ring
  rw [ellipseRadius, key]
  constructor
  · exact Real.le_sqrt_of_sq_le u1
  · rw [Real.sqrt_le_left (by norm_num)]; exact u2

/-! ### Arcs -/

theorem chord_circle (c : Pt ℝ) (r a d v : ℝ) (v0 : 0 ≤ v) (v1 : v ≤ 1) :
    r ^ 2 * Real.cos (radians d / 2) ^ 2 ≤ ((between (onCircle c r a) (onCircle c r (a + d)) v).x - c.x) ^ 2 +
        ((between (onCircle c r a) (onCircle c r (a + d)) v).y - c.y) ^ 2 ∧
      ((between (onCircle c r a) (onCircle c r (a + d)) v).x - c.x) ^ 2 +
        ((between (onCircle c r a) (onCircle c r (a + d)) v).y - c.y) ^ 2 ≤ r ^ 2 := by
  have hr : radians (a + d) = radians a + radians d := by simp only [radians]; ring
  have e : ((between (onCircle c r a) (onCircle c r (a + d)) v).x - c.x) ^ 2 +
        ((between (onCircle c r a) (onCircle c r (a + d)) v).y - c.y) ^ 2 =
      r ^ 2 * (1 - 4 * (v * (1 - v)) * (1 - Real.cos (radians d / 2) ^ 2)) := by
    simp only [between, onCircle, hr, Real.cos_add, Real.sin_add]
    have h2 : Real.cos (radians d) = 2 * Real.cos (radians d / 2) ^ 2 - 1 := by
      rw [← Real.cos_two_mul]; congr 1; ring
    have s1 := Real.sin_sq_add_cos_sq (radians a)
    have s2 := Real.sin_sq_add_cos_sq (radians d)
    have hc : Real.cos (radians d / 2) ^ 2 = (1 + Real.cos (radians d)) / 2 := by linarith
    rw [hc]
    generalize Real.cos (radians a) = x at *
    generalize Real.sin (radians a) = y at *
    generalize Real.cos (radians d) = z at *
    generalize Real.sin (radians d) = w at *
    have hy : y ^ 2 = 1 - x ^ 2 := by linarith
    have hw : w ^ 2 = 1 - z ^ 2 := by linarith
    have : (c.x + r * x + v * (c.x + r * (x * z - y * w) - (c.x + r * x)) - c.x) ^ 2 +
        (c.y + r * y + v * (c.y + r * (y * z + x * w) - (c.y + r * y)) - c.y) ^ 2 =
        r ^ 2 * ((x ^ 2 + y ^ 2) * ((1 - v + v * z) ^ 2 + v ^ 2 * w ^ 2)) := by ring
    rw [this, hy, hw]
    ring
  rw [e]
  have k0 : 0 ≤ v * (1 - v) := mul_nonneg v0 (by linarith)
  have k1 : v * (1 - v) ≤ 1 / 4 := by nlinarith [sq_nonneg (2 * v - 1)]
  have c0 : 0 ≤ 1 - Real.cos (radians d / 2) ^ 2 := by
    nlinarith [Real.sin_sq_add_cos_sq (radians d / 2), sq_nonneg (Real.sin (radians d / 2))]
  have r0 := sq_nonneg r
  generalize Real.cos (radians d / 2) ^ 2 = k at *
  have p1 := mul_nonneg k0 c0
  have p2 := mul_le_mul_of_nonneg_right k1 c0
  constructor
  · exact mul_le_mul_of_nonneg_left (by linarith) r0
  · exact mul_le_of_le_one_right r0 (by linarith)

theorem sweep_get {c : Pt ℝ} {r a w : ℝ} {n i : ℕ} {p : Pt ℝ} (h : (sweep c r a w n)[i]? = some p) :
    p = onCircle c r (a + w * ((i : ℝ) / n)) := by
  unfold sweep at h
  rw [List.getElem?_map, Option.map_eq_some_iff] at h
  obtain ⟨j, hj, rfl⟩ := h
  obtain ⟨h1, h2⟩ := List.getElem?_eq_some_iff.1 hj
  simp at h2
  rw [h2]

/-- The lines that join the points of an arc stay within the circle, and no further inside than half a step's angle allows. -/
theorem C120_sweep (c : Pt ℝ) (r a w : ℝ) (n : ℕ) (q : Pt ℝ) (hq : q ∈ joined (sweep c r a w n)) :
    |r| * |Real.cos (radians (w / n) / 2)| ≤ distPt q c ∧ distPt q c ≤ |r| := by
  obtain ⟨i, p, p', h1, h2, v, v0, v1, rfl⟩ := hq
  rw [sweep_get h1, sweep_get h2]
  have e : a + w * (((i + 1 : ℕ) : ℝ) / n) = a + w * ((i : ℝ) / n) + w / n := by push_cast; ring
  rw [e]
  obtain ⟨k1, k2⟩ := chord_circle c r (a + w * ((i : ℝ) / n)) (w / n) v v0 v1
  constructor
  · apply Real.le_sqrt_of_sq_le
    rw [mul_pow, sq_abs, sq_abs]; exact k1
  · rw [distPt, Real.sqrt_le_left (abs_nonneg r), sq_abs]; exact k2

/-- With the number of steps that `arc` picks by itself, no line that joins its points leaves the circle by more than 0.004 percent
of the radius, and none leaves it to the outside. -/
theorem C120_arc (r sa ea : ℝ) (c : Pt ℝ) (steps : ℤ) (dir : Utils.Dir) (hs : steps < 0) (q : Pt ℝ)
    (hq : q ∈ joined (Utils.arc r sa ea c steps dir)) :
    |r| * (1 - 4 / 100000) ≤ distPt q c ∧ distPt q c ≤ |r| := by
  obtain ⟨a, w, n, -, -, -, h4, -, h6, h⟩ := Utils.C52_arc r sa ea c steps dir (by omega)
  rw [h] at hq
  obtain ⟨k1, k2⟩ := C120_sweep c r a w n q hq
  refine ⟨le_trans (mul_le_mul_of_nonneg_left ?_ (abs_nonneg r)) k1, k2⟩
  have hd := (h6 hs).1
  have hc := Real.one_sub_sq_div_two_le_cos (x := radians (w / n) / 2)
  refine le_trans ?_ (le_abs_self _)
  refine le_trans ?_ hc
  have hr : radians (w / n) / 2 = w / n * (Real.pi / 360) := by simp only [radians]; ring
  rw [hr, mul_pow]
  have hp := Real.pi_lt_d2
  have hp0 := Real.pi_pos
  have h1 : (w / n) ^ 2 ≤ 1 := by rw [← sq_abs]; nlinarith [abs_nonneg (w / n)]
  have h2 : (Real.pi / 360) ^ 2 ≤ 8 / 100000 := by nlinarith
  nlinarith [mul_le_mul h1 h2 (by positivity) zero_le_one]

/-- The same for a circle. -/
theorem C120_circle (r : ℝ) (c : Pt ℝ) (q : Pt ℝ) (hq : q ∈ joined (Utils.circle r c)) :
    |r| * (1 - 4 / 100000) ≤ distPt q c ∧ distPt q c ≤ |r| := by
  have e : Utils.circle r c = sweep c r 0 360 360 := by
    rw [(Utils.C52_circle r c).1, sweep]
    congr 1
    funext i
    congr 1
    push_cast
    ring
  rw [e] at hq
  obtain ⟨k1, k2⟩ := C120_sweep c r 0 360 360 q hq
  refine ⟨le_trans (mul_le_mul_of_nonneg_left ?_ (abs_nonneg r)) k1, k2⟩
  refine le_trans ?_ (le_abs_self _)
  refine le_trans ?_ (Real.one_sub_sq_div_two_le_cos (x := radians (360 / (360 : ℕ)) / 2))
  have hr : radians (360 / (360 : ℕ)) / 2 = Real.pi / 360 := by simp only [radians]; push_cast; ring
  rw [hr]
  have hp := Real.pi_lt_d2
  have hp0 := Real.pi_pos
  nlinarith

/-! ### Cases that meet the hypotheses -/

/-- The identity magnifies nothing. -/
example : ∀ p q, distPt ((Mat3.one : Mat3 ℝ).apply p) ((Mat3.one : Mat3 ℝ).apply q) ≤ 1 * distPt p q := by
  intro p q
  simp [Mat3.apply, Mat3.one]

/-- A straight segment traversed at constant speed does not bend, so that any number of steps draws it exactly. -/
example : bend ⟨⟨0, 0⟩, ⟨1, 2⟩, ⟨2, 4⟩, ⟨3, 6⟩⟩ = 0 := by
  simp only [bend]; norm_num

example : (⟨1, 0⟩ : Pt ℝ) ∈ joined (Utils.circle 1 ⟨0, 0⟩) := by
  have h := (Utils.C52_circle 1 ⟨0, 0⟩).1
  refine ⟨0, onCircle ⟨0, 0⟩ 1 0, onCircle ⟨0, 0⟩ 1 1, by rw [h]; simp [List.getElem?_range], by
    rw [h]; simp [List.getElem?_range], 0, le_rfl, by norm_num, ?_⟩
  ext <;> simp [between, onCircle, radians]

end X7.Approx
