import Mathlib.Tactic.Linarith
import Mathlib.Tactic.Ring
import Mathlib.Tactic.FieldSimp
import Mathlib.Tactic.Positivity
import Verif.Spec.Utils
import Verif.Props.VecMetric
import Verif.Props.TransformGeom

/-! C51 to C54, C68: angles, arcs, paths and marker shapes (utils.py). -/

noncomputable section

namespace X7.Utils
open Real X7.TSpec

theorem pyMod_spec (a : ℝ) : 0 ≤ pyMod a 360 ∧ pyMod a 360 < 360 ∧ SameAngle (pyMod a 360) a := by
  unfold pyMod
  have h1 := Int.floor_le (a / 360)
  have h2 := Int.lt_floor_add_one (a / 360)
  rw [le_div_iff₀ (by norm_num)] at h1
  rw [div_lt_iff₀ (by norm_num)] at h2
  refine ⟨by linarith, by linarith, -⌊a / 360⌋, by push_cast; ring⟩

/-- **C51.** The result is the angle in [-180, 180) that leads from `source` to `target` up to full turns, and no other such
angle is smaller in size. -/
theorem C51_min_rotation (target source : ℝ) :
    -180 ≤ minRotation target source ∧ minRotation target source < 180 ∧
    SameAngle (source + minRotation target source) target ∧
    ∀ d, SameAngle (source + d) target → |minRotation target source| ≤ |d| := by
  obtain ⟨h1, h2, k, h3⟩ := pyMod_spec (target - source + 180)
  have hm : minRotation target source = pyMod (target - source + 180) 360 - 180 := rfl
  refine ⟨by linarith, by linarith, ⟨k, by rw [hm]; linarith⟩, ?_⟩
  rintro d ⟨j, hj⟩
  have hd : d = minRotation target source + 360 * ((j - k : ℤ) : ℝ) := by push_cast; rw [hm]; linarith
  have ha : |minRotation target source| ≤ 180 := abs_le.2 ⟨by linarith, by linarith⟩
  rcases lt_trichotomy (j - k) 0 with h | h | h
  · have : ((j - k : ℤ) : ℝ) ≤ -1 := by exact_mod_cast Int.le_sub_one_of_lt h
    have : d < -180 := by rw [hd]; linarith
    rw [abs_of_neg (by linarith : d < 0)]; linarith
  · rw [hd, h]; simp
  · have : (1 : ℝ) ≤ ((j - k : ℤ) : ℝ) := by exact_mod_cast h
    have : 180 ≤ d := by rw [hd]; linarith
    rw [abs_of_pos (by linarith : 0 < d)]; linarith

/-- The result is the only such angle. -/
theorem C51_unique (target source d : ℝ) (h : SameAngle (source + d) target) (h1 : -180 ≤ d) (h2 : d < 180) :
    d = minRotation target source := by
  obtain ⟨g1, g2, ⟨k, g3⟩, -⟩ := C51_min_rotation target source
  obtain ⟨j, hj⟩ := h
  have e : d - minRotation target source = 360 * ((j - k : ℤ) : ℝ) := by push_cast; linarith
  have l1 : ((j - k : ℤ) : ℝ) < 1 := by linarith
  have l2 : (-1 : ℝ) < ((j - k : ℤ) : ℝ) := by linarith
  have l3 : j - k < 1 := by exact_mod_cast l1
  have l4 : -1 < j - k := by exact_mod_cast l2
  have : j - k = 0 := by omega
  rw [this] at e
  push_cast at e
  linarith

example : minRotation (-340) 10 = 10 ∧ minRotation 180 0 = -180 := by
  have a : ⌊((-340 : ℝ) - 10 + 180) / 360⌋ = -1 := by rw [Int.floor_eq_iff]; norm_num
  have b : ⌊((180 : ℝ) - 0 + 180) / 360⌋ = 1 := by rw [Int.floor_eq_iff]; norm_num
  constructor
  · unfold minRotation pyMod; rw [a]; norm_num
  · unfold minRotation pyMod; rw [b]; norm_num

/-! ### C52 -/

theorem onCircle_congr {c : Pt ℝ} {r a b : ℝ} (h : SameAngle a b) : onCircle c r a = onCircle c r b := by
  obtain ⟨k, hk⟩ := h
  have : radians a = radians b + k * (2 * π) := by
    have : a = b + 360 * k := by linarith
    rw [this]; unfold radians; ring
  unfold onCircle
  rw [this, Real.cos_add_int_mul_two_pi, Real.sin_add_int_mul_two_pi]

theorem SameAngle.refl (a : ℝ) : SameAngle a a := ⟨0, by simp⟩

theorem SameAngle.add360 {a b : ℝ} (h : SameAngle a b) : SameAngle (a + 360) b := by
  obtain ⟨k, hk⟩ := h
  exact ⟨k + 1, by push_cast; linarith⟩

theorem arcAngles_spec (sa ea : ℝ) (dir : Dir) :
    SameAngle (arcAngles sa ea dir).1 sa ∧ SameAngle (arcAngles sa ea dir).2 ea ∧
      Goes sa ea (arcAngles sa ea dir).1 ((arcAngles sa ea dir).2 - (arcAngles sa ea dir).1) dir := by
  obtain ⟨s1, s2, s3⟩ := pyMod_spec sa
  obtain ⟨e1, e2, e3⟩ := pyMod_spec ea
  cases dir with
  | ccw =>
    simp only [arcAngles, Goes]
    refine ⟨s3, ?_, ?_⟩
    · split
      · exact e3.add360
      · exact e3
    · split <;> constructor <;> linarith
  | cw =>
    simp only [arcAngles, Goes]
    refine ⟨?_, e3, ?_⟩
    · split
      · exact s3.add360
      · exact s3
    · split <;> constructor <;> linarith
  | none =>
    simp only [arcAngles, Goes]
    exact ⟨.refl _, .refl _, trivial, trivial⟩

theorem arc_eq_sweep (r a b : ℝ) (c : Pt ℝ) (n : ℕ) :
    ((tRange n (radians a) (radians b)).map fun t => (⟨r * cos t + c.x, r * sin t + c.y⟩ : Pt ℝ)) =
      sweep c r a (b - a) n := by
  unfold tRange sweep
  rw [List.map_map]
  apply List.map_congr_left
  intro i _
  have : radians a + (i : ℝ) / (n : ℝ) * (radians b - radians a) = radians (a + (b - a) * (i / n)) := by
    unfold radians; ring
  simp only [Function.comp, onCircle, this]
  ext <;> simp [add_comm]

/-- **C52.** An arc: the points that one visits going from the start angle through a signed angle `w` in `n` equal steps; `w` leads
to the end angle and is in [0, 360) for ccw, in (-360, 0] for cw. `n` is `steps`, or, if that is negative, such that a step is at
most a degree. -/
theorem C52_arc (r sa ea : ℝ) (c : Pt ℝ) (steps : ℤ) (dir : Dir) (hs : steps ≠ 0) :
    ∃ a w : ℝ, ∃ n : ℕ, SameAngle a sa ∧ SameAngle (a + w) ea ∧ Goes sa ea a w dir ∧ 0 < n ∧
      (0 ≤ steps → (n : ℤ) = steps) ∧ (steps < 0 → |w / n| ≤ 1 ∧ (n : ℝ) ≤ |w| + 1) ∧
      arc r sa ea c steps dir = sweep c r a w n := by
  obtain ⟨h1, h2, h3⟩ := arcAngles_spec sa ea dir
  refine ⟨(arcAngles sa ea dir).1, (arcAngles sa ea dir).2 - (arcAngles sa ea dir).1,
    arcSteps (arcAngles sa ea dir).1 (arcAngles sa ea dir).2 steps, h1, by simpa using h2, h3, ?_, ?_, ?_, ?_⟩
  · unfold arcSteps
    split
    · rw [Nat.floor_pos]; linarith [abs_nonneg ((arcAngles sa ea dir).2 - (arcAngles sa ea dir).1)]
    · omega
  · intro h
    unfold arcSteps
    rw [if_neg (by omega)]
    omega
  · intro h
    unfold arcSteps
    rw [if_pos h]
    generalize (arcAngles sa ea dir).2 - (arcAngles sa ea dir).1 = w
    have f1 := Nat.lt_floor_add_one (|w| + 1)
    have f2 := Nat.floor_le (by positivity : 0 ≤ |w| + 1)
    have f3 : (0 : ℝ) < (⌊|w| + 1⌋₊ : ℝ) := by
      have : 0 < ⌊|w| + 1⌋₊ := by rw [Nat.floor_pos]; linarith [abs_nonneg w]
      exact_mod_cast this
    refine ⟨?_, f2⟩
    rw [abs_div, abs_of_pos f3, div_le_one f3]
    linarith
  · exact arc_eq_sweep _ _ _ _ _

theorem onCircle_dist (c : Pt ℝ) (r a : ℝ) : distPt (onCircle c r a) c = |r| := by
  unfold distPt onCircle
  have : (c.x + r * cos (radians a) - c.x) ^ 2 + (c.y + r * sin (radians a) - c.y) ^ 2 = r ^ 2 := by
    have := Real.sin_sq_add_cos_sq (radians a)
    linear_combination r ^ 2 * this
  simp only [this, Real.sqrt_sq_eq_abs]

theorem sweep_dist {c p : Pt ℝ} {r a w : ℝ} {n : ℕ} (h : p ∈ sweep c r a w n) : distPt p c = |r| := by
  unfold sweep at h
  obtain ⟨i, -, rfl⟩ := List.mem_map.1 h
  exact onCircle_dist _ _ _

/-- Every point of an arc is at distance |r| from the centre. -/
theorem C52_on_circle (r sa ea : ℝ) (c : Pt ℝ) (steps : ℤ) (dir : Dir) (p : Pt ℝ) (h : p ∈ arc r sa ea c steps dir) :
    distPt p c = |r| := by
  unfold arc at h
  rw [arc_eq_sweep] at h
  exact sweep_dist h

theorem sweep_head (c : Pt ℝ) (r a w : ℝ) (n : ℕ) : (sweep c r a w n).head? = some (onCircle c r a) := by
  unfold sweep
  rw [List.range_succ_eq_map]
  simp

theorem sweep_last (c : Pt ℝ) (r a w : ℝ) (n : ℕ) (hn : 0 < n) : (sweep c r a w n).getLast? = some (onCircle c r (a + w)) := by
  unfold sweep
  rw [List.range_succ, List.map_append, List.getLast?_append]
  have : (n : ℝ) ≠ 0 := by exact_mod_cast hn.ne'
  simp [div_self this]

/-- An arc starts at the start angle and ends at the end angle, as given. -/
theorem C52_ends (r sa ea : ℝ) (c : Pt ℝ) (steps : ℤ) (dir : Dir) (hs : steps ≠ 0) :
    (arc r sa ea c steps dir).head? = some (onCircle c r sa) ∧
    (arc r sa ea c steps dir).getLast? = some (onCircle c r ea) := by
  obtain ⟨a, w, n, h1, h2, -, h4, -, -, h⟩ := C52_arc r sa ea c steps dir hs
  rw [h, sweep_head, sweep_last _ _ _ _ _ h4, onCircle_congr h1, onCircle_congr h2]
  exact ⟨rfl, rfl⟩

/-- A full turn cannot be asked for with ccw or cw: equal angles give the start point repeated. -/
theorem C52_full_turn (r sa : ℝ) (k : ℤ) (c : Pt ℝ) (steps : ℤ) (dir : Dir) (hd : dir ≠ .none) (p : Pt ℝ)
    (h : p ∈ arc r sa (sa + 360 * k) c steps dir) : p = onCircle c r sa := by
  have hm : pyMod (sa + 360 * k) 360 = pyMod sa 360 := by
    unfold pyMod
    have : (sa + 360 * (k : ℝ)) / 360 = sa / 360 + k := by field_simp
    rw [this, Int.floor_add_intCast]
    push_cast
    ring
  have ha : arcAngles sa (sa + 360 * k) dir = (pyMod sa 360, pyMod sa 360) := by
    cases dir with
    | ccw => simp [arcAngles, hm]
    | cw => simp [arcAngles, hm]
    | none => exact absurd rfl hd
  unfold arc at h
  rw [arc_eq_sweep, ha] at h
  unfold sweep at h
  obtain ⟨i, -, rfl⟩ := List.mem_map.1 h
  simp only [sub_self, zero_mul, add_zero]
  exact onCircle_congr (pyMod_spec sa).2.2

/-- `circle`: the points at 0, 1, ..., 360 degrees: 361 of them, all at distance |r| from the centre, the last the same as the
first. -/
theorem C52_circle (r : ℝ) (c : Pt ℝ) :
    circle r c = (List.range 361).map (fun (i : ℕ) => onCircle c r (i : ℝ)) ∧
    (∀ p ∈ circle r c, distPt p c = |r|) ∧
    (circle r c).head? = some ⟨c.x + r, c.y⟩ ∧ (circle r c).getLast? = some ⟨c.x + r, c.y⟩ := by
  have h : circle r c = (List.range 361).map (fun (i : ℕ) => onCircle c r (i : ℝ)) := by
    have e := arc_eq_sweep r 0 360 c 360
    have a : radians 0 = 0 := by simp [radians]
    have b : radians 360 = 2 * π := by unfold radians; ring
    rw [a, b] at e
    unfold circle
    rw [e]
    unfold sweep
    apply List.map_congr_left
    intro i _
    congr 1
    push_cast
    ring
  refine ⟨h, ?_, ?_, ?_⟩
  · intro p hp
    rw [h] at hp
    obtain ⟨i, -, rfl⟩ := List.mem_map.1 hp
    exact onCircle_dist _ _ _
  · rw [h, List.range_succ_eq_map]
    simp [onCircle, radians]
  · rw [h, List.range_succ, List.map_append, List.getLast?_append]
    have b : radians 360 = 2 * π := by unfold radians; ring
    simp [onCircle, b]

example : ∃ p, p ∈ arc 2 350 10 ⟨0, 0⟩ (-1) .ccw := by
  have := (C52_ends 2 350 10 ⟨0, 0⟩ (-1) .ccw (by norm_num)).1
  exact ⟨_, List.mem_of_head? this⟩

/-! ### C53 -/

theorem onCircle_angle (p c : Pt ℝ) (r : ℝ) (h : (p.sub c).length = r) : onCircle c r (p.sub c).angle = p := by
  obtain ⟨h1, -, -⟩ := C03_polar (p.sub c)
  rw [h] at h1
  have hx := congrArg Vec.x h1
  have hy := congrArg Vec.y h1
  simp only [Vec.rotate, Pt.sub, mul_zero, sub_zero, add_zero] at hx hy
  unfold onCircle
  ext
  · simp only [Pt.sub]; linarith
  · simp only [Pt.sub]; linarith

theorem length_eq_dist (p c : Pt ℝ) : (p.sub c).length = distPt p c := by
  unfold Vec.length hypot Pt.sub distPt
  congr 1
  ring

theorem normal_unit (v : Vec ℝ) (hv : v ≠ ⟨0, 0⟩) (side : ℝ) (hs : side ≠ 0) :
    (v.normal.mul side).unit = .ok ⟨v.y * side / (v.length * |side|), -v.x * side / (v.length * |side|)⟩ := by
  have hl : (v.normal.mul side).length = v.length * |side| := by
    have := hypot_mul v.y (-v.x) side
    unfold Vec.length Vec.mul Vec.normal
    simp only
    rw [this]
    congr 1
    unfold hypot
    congr 1
    ring
  have hn : v.normal.mul side ≠ ⟨0, 0⟩ := by
    rw [ne_eq, ← Vec.length_eq_zero, hl]
    exact mul_ne_zero (Vec.length_pos hv).ne' (abs_ne_zero.2 hs)
  rw [Vec.unit_ok hn, hl]
  rfl

theorem sub_ne_zero_of_ne {s e : Pt ℝ} (h : s ≠ e) : e.sub s ≠ ⟨0, 0⟩ := by
  intro h0
  apply h
  have hx := congrArg Vec.x h0
  have hy := congrArg Vec.y h0
  simp only [Pt.sub] at hx hy
  ext
  · linarith
  · linarith

/-- **C53.** Two different points no further apart than the diameter: the result is end, centre and start, then an arc about the
centre from start to end; the centre is at distance `r` from both points; it is on the right of the line from start to end if
`side` is positive, on the left if negative, unless the points are a diameter apart. -/
theorem C53_arc2p (r : ℝ) (s e : Pt ℝ) (steps : ℤ) (side : ℝ) (hne : s ≠ e) (hr : distPt s e ≤ 2 * r) (hside : side ≠ 0)
    (hsteps : steps ≠ 0) :
    ∃ c pts, arc2p r s e steps side = .ok ([e, c, s] ++ pts) ∧
      distPt s c = r ∧ distPt e c = r ∧
      (distPt s e < 2 * r → (e.sub s).cross (c.sub s) * side < 0) ∧ (distPt s e = 2 * r → c = s.mid e) ∧
      pts.head? = some s ∧ pts.getLast? = some e ∧ (∀ p ∈ pts, distPt p c = r) ∧
      ∃ a w n, pts = sweep c r a w n ∧ 0 < n ∧ onCircle c r a = s ∧ onCircle c r (a + w) = e ∧ 0 ≤ w ∧ w < 360 := by
  have hv := sub_ne_zero_of_ne hne
  have hL := Vec.length_pos hv
  have hd : (e.sub s).length = distPt s e := by
    rw [length_eq_dist]; unfold distPt; congr 1; ring
  have hLr : (e.sub s).length / 2 ≤ r := by rw [hd]; linarith
  have hsq : (e.sub s).length ^ 2 = (e.x - s.x) ^ 2 + (e.y - s.y) ^ 2 := by
    have := Vec.length_sq (e.sub s)
    simp only [Vec.dot, Pt.sub] at this
    simp only [Pt.sub]
    linear_combination this
  have hcl : 0 ≤ r * r - (e.sub s).length / 2 * ((e.sub s).length / 2) := by
    nlinarith
  obtain ⟨cll, hcll⟩ : ∃ x, x = √(r * r - (e.sub s).length / 2 * ((e.sub s).length / 2)) := ⟨_, rfl⟩
  have hcll0 : 0 ≤ cll := hcll ▸ Real.sqrt_nonneg _
  have hcll2 : cll ^ 2 = r * r - (e.sub s).length / 2 * ((e.sub s).length / 2) := by rw [hcll, Real.sq_sqrt hcl]
  obtain ⟨sg, hsg⟩ : ∃ x, x = side / |side| := ⟨_, rfl⟩
  have habs : 0 < |side| := abs_pos.2 hside
  have hsg2 : sg ^ 2 = 1 := by rw [hsg, div_pow, sq_abs, div_self (pow_ne_zero 2 hside)]
  have hsgs : sg * side = |side| := by rw [hsg]; field_simp; rw [sq_abs]
  obtain ⟨L, hLdef⟩ : ∃ x, x = (e.sub s).length := ⟨_, rfl⟩
  rw [← hLdef] at hL hd hLr hsq hcl hcll hcll2
  let c : Pt ℝ := ⟨(s.x + e.x) / 2 + (e.y - s.y) / L * sg * cll, (s.y + e.y) / 2 - (e.x - s.x) / L * sg * cll⟩
  have hc : ((s.addVector ((e.sub s).mul (1 / 2))).addVector
      ((⟨(e.sub s).y * side / (L * |side|), -(e.sub s).x * side / (L * |side|)⟩ : Vec ℝ).mul cll)) = c := by
    simp only [Pt.addVector, Vec.mul, Pt.sub, c, hsg]
    ext
    · simp only; field_simp; ring
    · simp only; field_simp; ring
  have e1 : (e.y - s.y) / L * ((e.y - s.y) / L) + (e.x - s.x) / L * ((e.x - s.x) / L) = 1 := by
    field_simp
    linarith
  have hlen : ∀ t : ℝ, t ^ 2 = 1 → ∀ p : Pt ℝ, p.x = (s.x + e.x) / 2 + t * (e.x - s.x) / 2 → p.y = (s.y + e.y) / 2 + t * (e.y - s.y) / 2 →
      distPt p c = r := by
    intro t ht p hx hy
    unfold distPt
    rw [← Real.sqrt_sq (by linarith [hL] : 0 ≤ r)]
    congr 1
    rw [hx, hy]
    simp only [c]
    have : (((s.x + e.x) / 2 + t * (e.x - s.x) / 2) - ((s.x + e.x) / 2 + (e.y - s.y) / L * sg * cll)) ^ 2 +
        (((s.y + e.y) / 2 + t * (e.y - s.y) / 2) - ((s.y + e.y) / 2 - (e.x - s.x) / L * sg * cll)) ^ 2 =
        t ^ 2 * ((e.x - s.x) ^ 2 + (e.y - s.y) ^ 2) / 4 +
        ((e.y - s.y) / L * ((e.y - s.y) / L) + (e.x - s.x) / L * ((e.x - s.x) / L)) * sg ^ 2 * cll ^ 2 := by ring
    rw [this, e1, ht, hsg2, hcll2, ← hsq]
    ring
  have hsc : distPt s c = r := hlen (-1) (by norm_num) s (by ring) (by ring)
  have hec : distPt e c = r := hlen 1 (by norm_num) e (by ring) (by ring)
  have hres : arc2p r s e steps side = .ok ([e, c, s] ++ arc r (s.sub c).angle (e.sub c).angle c steps .ccw) := by
    unfold arc2p
    simp only [← hLdef]
    rw [if_neg (not_lt.2 hLr), if_neg (by linarith)]
    have hu := normal_unit _ hv side hside
    rw [← hLdef] at hu
    rw [hu]
    simp only
    rw [← hcll, hc]
  obtain ⟨a, w, n, h1, h2, h3, h4, -, -, h5⟩ := C52_arc r (s.sub c).angle (e.sub c).angle c steps .ccw hsteps
  have ps : onCircle c r (s.sub c).angle = s := onCircle_angle _ _ _ (by rw [length_eq_dist]; exact hsc)
  have pe : onCircle c r (e.sub c).angle = e := onCircle_angle _ _ _ (by rw [length_eq_dist]; exact hec)
  have hends := C52_ends r (s.sub c).angle (e.sub c).angle c steps .ccw hsteps
  rw [ps, pe] at hends
  refine ⟨c, _, hres, hsc, hec, ?_, ?_, hends.1, hends.2, ?_, a, w, n, h5, h4, ?_, ?_, h3⟩
  · intro hlt
    have hpos : 0 < cll := by
      rw [hcll]
      apply Real.sqrt_pos.2
      have : L < 2 * r := by rw [hd]; exact hlt
      nlinarith
    have : (e.sub s).cross (c.sub s) * side =
        -((e.x - s.x) ^ 2 + (e.y - s.y) ^ 2) / L * cll * (sg * side) := by
      simp only [Vec.cross, Pt.sub, c]
      ring
    rw [this, ← hsq, hsgs]
    have : -L ^ 2 / L * cll * |side| = -(L * cll * |side|) := by field_simp
    rw [this]
    have : 0 < L * cll * |side| := by positivity
    linarith
  · intro heq
    have : cll = 0 := by
      rw [hcll, ← Real.sqrt_zero]
      congr 1
      have : L = 2 * r := by rw [hd]; exact heq
      rw [this]; ring
    simp only [c, this, Pt.mid]
    ext <;> simp
  · intro p hp
    rw [C52_on_circle _ _ _ _ _ _ _ hp, abs_of_nonneg (by linarith)]
  · rw [onCircle_congr h1, ps]
  · rw [onCircle_congr h2, pe]

/-- Points too far apart or equal raise `ValueError`; a zero `side` raises `ZeroDivisionError` otherwise. -/
theorem C53_errors (r : ℝ) (s e : Pt ℝ) (steps : ℤ) (side : ℝ) :
    (2 * r < distPt s e → arc2p r s e steps side = .error .value) ∧
    (s = e → arc2p r s e steps side = .error .value) ∧
    (s ≠ e → distPt s e ≤ 2 * r → arc2p r s e steps 0 = .error .zeroDivision) := by
  have hd : (e.sub s).length = distPt s e := by
    rw [length_eq_dist]; unfold distPt; congr 1; ring
  refine ⟨fun h => ?_, ?_, fun h1 h2 => ?_⟩
  · unfold arc2p
    rw [if_pos (by rw [hd]; linarith)]
  · rintro rfl
    have : (s.sub s).length = 0 := by rw [Vec.length_eq_zero]; simp [Pt.sub]
    unfold arc2p
    simp only [this]
    split
    · rfl
    · simp
  · have hL := Vec.length_pos (sub_ne_zero_of_ne h1)
    unfold arc2p
    simp only
    rw [if_neg (by rw [hd]; linarith), if_neg (by linarith)]
    have : (e.sub s).normal.mul 0 = ⟨0, 0⟩ := by simp [Vec.mul]
    rw [this, Vec.unit_zero]

/-- The angle that the arc goes through: at least a half turn for positive `side` (the long way round), at most a half turn for
negative `side`. -/
theorem C53_long_short (c s e : Pt ℝ) (r a w side : ℝ) (hr : 0 < r) (hs : onCircle c r a = s) (he : onCircle c r (a + w) = e)
    (h0 : 0 ≤ w) (h1 : w < 360) (hside : (e.sub s).cross (c.sub s) * side < 0) :
    (0 < side → 180 < w) ∧ (side < 0 → 0 < w ∧ w < 180) := by
  have key : (e.sub s).cross (c.sub s) = r ^ 2 * sin (radians w) := by
    rw [← hs, ← he]
    simp only [Vec.cross, Pt.sub, onCircle, radians_add, Real.cos_add, Real.sin_add]
    have := Real.sin_sq_add_cos_sq (radians a)
    linear_combination r ^ 2 * sin (radians w) * this
  rw [key] at hside
  have hp := Real.pi_pos
  have hsin0 : sin (radians w) ≠ 0 := by
    intro h; rw [h] at hside; simp at hside
  constructor
  · intro hpos
    have hneg : sin (radians w) < 0 := by
      by_contra hge
      have : 0 ≤ r ^ 2 * sin (radians w) * side := by
        have := not_lt.1 hge
        positivity
      linarith
    by_contra hle
    have : 0 ≤ sin (radians w) := Real.sin_nonneg_of_nonneg_of_le_pi (by unfold radians; positivity)
      (by unfold radians; rw [div_le_iff₀ (by norm_num)]; nlinarith [not_lt.1 hle])
    linarith
  · intro hneg
    have hpos : 0 < sin (radians w) := by
      by_contra hle
      have h2 := not_lt.1 hle
      have : 0 ≤ r ^ 2 * sin (radians w) * side := by
        have : 0 ≤ sin (radians w) * side := mul_nonneg_of_nonpos_of_nonpos h2 hneg.le
        nlinarith [sq_nonneg r]
      linarith
    constructor
    · rcases h0.lt_or_eq with h | h
      · exact h
      · exact absurd (by rw [← h]; simp [radians]) hsin0
    · by_contra hge
      have h180 := not_lt.1 hge
      have : sin (radians w) ≤ 0 := by
        have e1 : sin (radians w) = - sin (radians w - π) := by rw [Real.sin_sub_pi]; ring
        rw [e1]
        have : 0 ≤ sin (radians w - π) := Real.sin_nonneg_of_nonneg_of_le_pi
          (by unfold radians; rw [sub_nonneg, le_div_iff₀ (by norm_num)]; nlinarith)
          (by unfold radians; rw [sub_le_iff_le_add, div_le_iff₀ (by norm_num)]; nlinarith)
        linarith
      linarith

example : (⟨0, 0⟩ : Pt ℝ) ≠ ⟨6, 8⟩ ∧ distPt ⟨0, 0⟩ ⟨6, 8⟩ ≤ 2 * 7 ∧ (1 : ℝ) ≠ 0 := by
  refine ⟨by simp, ?_, by norm_num⟩
  have : (100 : ℝ) = 10 ^ 2 := by norm_num
  simp only [distPt]
  norm_num
  rw [this, Real.sqrt_sq (by norm_num)]
  norm_num

/-! ### C54 -/

/-- A list of points, or of tuples, with given coordinates. -/
def mkPts (ps : List (Pt ℝ)) : List Item := ps.map Item.pt
def mkXys (ps : List (Pt ℝ)) : List Item := ps.map Item.xy
def mkAs (asPt : Bool) (ps : List (Pt ℝ)) : List Item := if asPt then mkPts ps else mkXys ps

theorem mapM_pt {f : Item → Except PyErr Item} {g : Pt ℝ → Item} (h : ∀ p, f (.pt p) = .ok (g p)) (ps : List (Pt ℝ)) :
    (mkPts ps).mapM f = .ok (ps.map g) := by
  induction ps with
  | nil => rfl
  | cons p ps ih =>
    have : mkPts (p :: ps) = .pt p :: mkPts ps := rfl
    rw [this, List.mapM_cons, h, ih]
    rfl

theorem mapM_first {f : Item → Except PyErr Item} {g : Pt ℝ → Item} (h : ∀ p, f (.pt p) = .ok (g p)) (ps : List (Pt ℝ))
    {x : Item} {rest : List Item} {err : PyErr} (hx : f x = .error err) : (mkPts ps ++ x :: rest).mapM f = .error err := by
  induction ps with
  | nil => rw [show mkPts [] = [] from rfl, List.nil_append, List.mapM_cons, hx]; rfl
  | cons p ps ih =>
    have : mkPts (p :: ps) = .pt p :: mkPts ps := rfl
    rw [this, List.cons_append, List.mapM_cons, h, ih]
    rfl

theorem mkAs_map (asPt : Bool) (f : Pt ℝ → Pt ℝ) (ps : List (Pt ℝ)) :
    ps.map (fun p => if asPt then Item.pt (f p) else Item.xy (f p)) = mkAs asPt (ps.map f) := by
  cases asPt <;> simp [mkAs, mkPts, mkXys]

/-- **C54.** On lists of points the helpers work point by point, in order: rotation about the origin, clockwise for
`path_rotate`, translation, conversion. -/
theorem C54_pointwise (ps : List (Pt ℝ)) (angle : ℝ) (d : Vec ℝ) (asPt : Bool) :
    pathRotate (mkPts ps) angle asPt = .ok (mkAs asPt (ps.map (turnCw angle))) ∧
    pathRotateCcw (mkPts ps) angle asPt = .ok (mkAs asPt (ps.map (turnCcw angle))) ∧
    pathTranslate (mkPts ps) d asPt = .ok (mkAs asPt (ps.map fun p => ⟨p.x + d.x, p.y + d.y⟩)) ∧
    pathToXy (mkPts ps) = .ok (mkXys ps) ∧ pathFromXy (mkXys ps) = .ok (mkPts ps) := by
  refine ⟨?_, ?_, ?_, ?_, ?_⟩
  · unfold pathRotate
    rw [mapM_pt (g := fun p => if asPt then .pt ((TState.new.rotate angle).transform p)
      else .xy ((TState.new.rotate angle).transform p)) (fun p => rfl), rotate_new, mkAs_map]
  · unfold pathRotateCcw
    rw [mapM_pt (g := fun p => if asPt then .pt ((TState.new.rotateCcw angle).transform p)
      else .xy ((TState.new.rotateCcw angle).transform p)) (fun p => rfl), rotateCcw_new, mkAs_map]
  · unfold pathTranslate
    rw [mapM_pt (g := fun p => if asPt then .pt (p.addVector d) else .xy (p.addVector d)) (fun p => rfl), mkAs_map]
    rfl
  · unfold pathToXy
    rw [mapM_pt (g := Item.xy) (fun p => rfl)]
    rfl
  · unfold pathFromXy
    induction ps with
    | nil => rfl
    | cons p ps ih =>
      have : mkXys (p :: ps) = .xy p :: mkXys ps := rfl
      rw [this, List.mapM_cons, ih]
      rfl

/-- Turning back and moving back. -/
theorem C54_inverse (ps : List (Pt ℝ)) (angle : ℝ) (d : Vec ℝ) :
    (pathRotate (mkPts ps) angle true >>= fun q => pathRotate q (-angle) true) = .ok (mkPts ps) ∧
    (pathRotateCcw (mkPts ps) angle true >>= fun q => pathRotateCcw q (-angle) true) = .ok (mkPts ps) ∧
    (pathRotate (mkPts ps) angle true >>= fun q => pathRotateCcw q angle true) = .ok (mkPts ps) ∧
    (pathTranslate (mkPts ps) d true >>= fun q => pathTranslate q d.neg true) = .ok (mkPts ps) ∧
    (pathToXy (mkPts ps) >>= pathFromXy) = .ok (mkPts ps) := by
  have r1 := fun q a => (C54_pointwise q a d true).1
  have r2 := fun q a => (C54_pointwise q a d true).2.1
  have r3 := fun q e => (C54_pointwise q angle e true).2.2.1
  have r4 := (C54_pointwise ps angle d true).2.2.2
  have htrig := Real.sin_sq_add_cos_sq (radians angle)
  have c1 : ∀ p, turnCw (-angle) (turnCw angle p) = p := by
    intro p
    simp only [turnCw, radians_neg, Real.cos_neg, Real.sin_neg]
    ext
    · linear_combination p.x * htrig
    · linear_combination p.y * htrig
  have c2 : ∀ p, turnCcw (-angle) (turnCcw angle p) = p := by
    intro p
    simp only [turnCcw, radians_neg, Real.cos_neg, Real.sin_neg]
    ext
    · linear_combination p.x * htrig
    · linear_combination p.y * htrig
  have c3 : ∀ p, turnCcw angle (turnCw angle p) = p := by
    intro p
    simp only [turnCcw, turnCw]
    ext
    · linear_combination p.x * htrig
    · linear_combination p.y * htrig
  refine ⟨?_, ?_, ?_, ?_, ?_⟩
  · rw [r1]
    show pathRotate (mkPts _) (-angle) true = _
    rw [r1]
    simp [mkAs, Function.comp_def, c1]
  · rw [r2]
    show pathRotateCcw (mkPts _) (-angle) true = _
    rw [r2]
    simp [mkAs, Function.comp_def, c2]
  · rw [r1]
    show pathRotateCcw (mkPts _) angle true = _
    rw [r2]
    simp [mkAs, Function.comp_def, c3]
  · rw [r3]
    show pathTranslate (mkPts _) d.neg true = _
    rw [r3]
    simp [mkAs, Function.comp_def, Vec.neg]
  · rw [r4.1]
    exact r4.2

/-- `path_rotate` with a positive angle turns clockwise, against `path_rotate_ccw`: the point (1, 0) turned by 90 goes to (0, -1). -/
theorem C54_rotate_sense : turnCw 90 ⟨1, 0⟩ = ⟨0, -1⟩ ∧ turnCcw 90 ⟨1, 0⟩ = ⟨0, 1⟩ := by
  have : radians 90 = π / 2 := by unfold radians; ring
  constructor <;> simp [turnCw, turnCcw, this]

/-- With `as_pt=False`, the default, the results are tuples, which the helpers do not take: a second call raises. -/
theorem C54_tuples_rejected (ps : List (Pt ℝ)) (h : ps ≠ []) (a b : ℝ) (d : Vec ℝ) (asPt : Bool) :
    (pathRotate (mkPts ps) a false >>= fun q => pathRotate q b asPt) = .error .attribute ∧
    (pathRotate (mkPts ps) a false >>= fun q => pathTranslate q d asPt) = .error .type ∧
    (pathRotate (mkPts ps) a false >>= pathToXy) = .error .attribute := by
  obtain ⟨p, ps, rfl⟩ := List.exists_cons_of_ne_nil h
  rw [(C54_pointwise (p :: ps) a d false).1]
  exact ⟨rfl, rfl, rfl⟩

/-- Entries that are neither points nor tuples: the first wrong entry decides, with an `AttributeError` for rotations and conversion
to tuples and a `TypeError` for translation and conversion from tuples. -/
theorem C54_wrong_entries (ps : List (Pt ℝ)) (l : List Item) (a : ℝ) (d : Vec ℝ) (asPt : Bool) :
    pathRotate (mkPts ps ++ .other :: l) a asPt = .error .attribute ∧
    pathRotateCcw (mkPts ps ++ .other :: l) a asPt = .error .attribute ∧
    pathTranslate (mkPts ps ++ .other :: l) d asPt = .error .type ∧
    pathToXy (mkPts ps ++ .other :: l) = .error .attribute ∧
    pathFromXy (mkPts ps ++ .other :: l) = .error .type ∧ pathFromXy (mkXys ps ++ .other :: l) = .error .type := by
  have pts : ∀ (f : Item → Except PyErr Item) (e : PyErr), (∀ p, ∃ q, f (.pt p) = .ok q) → f .other = .error e →
      (mkPts ps ++ .other :: l).mapM f = .error e := by
    intro f e hp he
    induction ps with
    | nil => rw [show mkPts [] ++ Item.other :: l = .other :: l from rfl, List.mapM_cons, he]; rfl
    | cons p ps ih =>
      obtain ⟨q, hq⟩ := hp p
      rw [show mkPts (p :: ps) ++ Item.other :: l = .pt p :: (mkPts ps ++ .other :: l) from rfl, List.mapM_cons, hq, ih]; rfl
  refine ⟨pts _ _ (fun p => ⟨_, rfl⟩) rfl, pts _ _ (fun p => ⟨_, rfl⟩) rfl, pts _ _ (fun p => ⟨_, rfl⟩) rfl, pts _ _ (fun p => ⟨_, rfl⟩) rfl,
    pts _ _ (fun p => ⟨_, rfl⟩) rfl, ?_⟩
  have xys : ∀ ps, (mkXys ps ++ .other :: l).mapM itemPoint = .error .type := by
    intro ps
    induction ps with
    | nil => rfl
    | cons p ps ih =>
      rw [show mkXys (p :: ps) ++ Item.other :: l = .xy p :: (mkXys ps ++ .other :: l) from rfl, List.mapM_cons, ih]; rfl
  exact xys ps

/-- `check_point_list` raises `ValueError` exactly if some entry is not a point. -/
theorem C54_check (l : List Item) :
    (checkPointList l = .ok () ↔ ∃ ps, l = mkPts ps) ∧ (checkPointList l = .ok () ∨ checkPointList l = .error .value) := by
  induction l with
  | nil => exact ⟨⟨fun _ => ⟨[], rfl⟩, fun _ => rfl⟩, Or.inl rfl⟩
  | cons x l ih =>
    cases x with
    | pt p =>
      refine ⟨⟨fun h => ?_, ?_⟩, ih.2⟩
      · obtain ⟨ps, rfl⟩ := ih.1.1 h
        exact ⟨p :: ps, rfl⟩
      · rintro ⟨ps, h⟩
        cases ps with
        | nil => cases h
        | cons q ps =>
          injection h with h1 h2
          exact ih.1.2 ⟨ps, h2⟩
    | xy p =>
      refine ⟨⟨fun h => by simp [checkPointList] at h, ?_⟩, Or.inr rfl⟩
      rintro ⟨ps, h⟩
      cases ps <;> cases h
    | other =>
      refine ⟨⟨fun h => by simp [checkPointList] at h, ?_⟩, Or.inr rfl⟩
      rintro ⟨ps, h⟩
      cases ps <;> cases h

/-- On every list that passes `check_point_list` the helpers do not raise, and the result has as many entries. -/
theorem C54_total (l : List Item) (h : checkPointList l = .ok ()) (a : ℝ) (d : Vec ℝ) (asPt : Bool) :
    (∃ q, pathRotate l a asPt = .ok q ∧ q.length = l.length) ∧ (∃ q, pathRotateCcw l a asPt = .ok q ∧ q.length = l.length) ∧
    (∃ q, pathTranslate l d asPt = .ok q ∧ q.length = l.length) ∧ ∃ q, pathToXy l = .ok q ∧ q.length = l.length := by
  obtain ⟨ps, rfl⟩ := (C54_check l).1.1 h
  obtain ⟨h1, h2, h3, h4, -⟩ := C54_pointwise ps a d asPt
  refine ⟨⟨_, h1, ?_⟩, ⟨_, h2, ?_⟩, ⟨_, h3, ?_⟩, ⟨_, h4, ?_⟩⟩
  · cases asPt <;> simp [mkAs, mkPts, mkXys]
  · cases asPt <;> simp [mkAs, mkPts, mkXys]
  · cases asPt <;> simp [mkAs, mkPts, mkXys]
  · simp [mkPts, mkXys]

example : checkPointList [.pt ⟨1, 2⟩, .pt ⟨3, 4⟩] = .ok () ∧ checkPointList [.pt ⟨1, 2⟩, .xy ⟨3, 4⟩] = .error .value := ⟨rfl, rfl⟩

/-! ### C68 -/

/-- Five points: the ends of a stroke, the centre, the ends of another stroke; ends at distance `r` from the centre on opposite
sides, strokes at right angles. -/
def IsMarker (l : List (Pt ℝ)) (r : ℝ) (c : Pt ℝ) : Prop :=
  ∃ p q u v, l = [p, q, c, u, v] ∧ distPt p c = |r| ∧ distPt q c = |r| ∧ distPt u c = |r| ∧ distPt v c = |r| ∧
    p.mid q = c ∧ u.mid v = c ∧ (q.sub p).dot (v.sub u) = 0

/-- **C68.** `plus` and `cross` give markers of radius `r` about `c`; the strokes of `plus` are along the axes, those of `cross`
along the diagonals. -/
theorem C68_markers (r : ℝ) (c : Pt ℝ) :
    IsMarker (plus r c) r c ∧ IsMarker (cross r c) r c ∧
    (plus r c).head? = some ⟨c.x - r, c.y⟩ ∧
    ∃ k, cross r c = [⟨c.x - k, c.y - k⟩, ⟨c.x + k, c.y + k⟩, c, ⟨c.x + k, c.y - k⟩, ⟨c.x - k, c.y + k⟩] := by
  have h2 : (√2 : ℝ) ^ 2 = 2 := Real.sq_sqrt (by norm_num)
  have dist : ∀ (p : Pt ℝ), (p.x - c.x) ^ 2 + (p.y - c.y) ^ 2 = r ^ 2 → distPt p c = |r| := by
    intro p hp
    unfold distPt
    rw [hp, Real.sqrt_sq_eq_abs]
  refine ⟨?_, ?_, ?_, r * (√2 / 2), ?_⟩
  · refine ⟨_, _, _, _, rfl, dist _ ?_, dist _ ?_, dist _ ?_, dist _ ?_, ?_, ?_, ?_⟩
    · simp only [Pt.subVec]; ring
    · simp only [Pt.addVector]; ring
    · simp only [Pt.subVec]; ring
    · simp only [Pt.addVector]; ring
    · simp only [Pt.subVec, Pt.addVector, Pt.mid]; ext <;> (simp only; ring)
    · simp only [Pt.subVec, Pt.addVector, Pt.mid]; ext <;> (simp only; ring)
    · simp only [Pt.subVec, Pt.addVector, Pt.sub, Vec.dot]; ring
  · refine ⟨_, _, _, _, rfl, dist _ ?_, dist _ ?_, dist _ ?_, dist _ ?_, ?_, ?_, ?_⟩
    · simp only [Pt.subVec]; linear_combination r ^ 2 / 2 * h2
    · simp only [Pt.addVector]; linear_combination r ^ 2 / 2 * h2
    · simp only [Pt.subVec]; linear_combination r ^ 2 / 2 * h2
    · simp only [Pt.addVector]; linear_combination r ^ 2 / 2 * h2
    · simp only [Pt.subVec, Pt.addVector, Pt.mid]; ext <;> (simp only; ring)
    · simp only [Pt.subVec, Pt.addVector, Pt.mid]; ext <;> (simp only; ring)
    · simp only [Pt.subVec, Pt.addVector, Pt.sub, Vec.dot]; ring
  · simp [plus, Pt.subVec]
  · simp only [cross, Pt.subVec, Pt.addVector, sub_neg_eq_add, ← sub_eq_add_neg]

end X7.Utils
