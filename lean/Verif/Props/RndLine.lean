import Verif.Lemmas.FlLine
import Verif.Spec.RndLine

/-!
C89: lines and segments under rounding. `R` is any rounding with the properties of `Rnd`.
-/

namespace X7
open Rnd
variable (R : Rnd)

/-- C89: without rounding the rounded versions are the exact models that the other properties are about. -/
theorem C89_exact_model :
    (∀ p q, Fl.lineFromPts .exact p q = Line.fromPts p q) ∧ (∀ l, Fl.lineP2 .exact l = l.p2) ∧
    (∀ l, Fl.lineMid .exact l = l.midpoint) ∧ (∀ l v, Fl.lineAdd .exact l v = l.add v) ∧
    (∀ l v, Fl.lineSub .exact l v = l.sub v) ∧ (∀ l p, Fl.lineClosest .exact hypot l p = l.closest p) ∧
    (∀ l o, Fl.lineParallel .exact l o = l.parallel o) ∧ (∀ l o, Fl.lineIntersection .exact l o = l.intersection o) ∧
    (∀ l, Fl.segmentBBox .exact l = l.segmentBBox) ∧
    (∀ l o, Fl.segmentIntersection .exact hypot l o = l.segmentIntersection o) := by
  refine ⟨fun _ _ => rfl, fun _ => rfl, fun _ => rfl, fun _ _ => rfl, fun _ _ => rfl, ?_, fun _ _ => rfl, ?_, fun _ => rfl, ?_⟩
  · intro l p
    unfold Fl.lineClosest Line.closest
    rw [show Fl.unit .exact hypot l.direction = l.direction.unit from rfl]
    rcases l.direction.unit with e | d <;> rfl
  · intro l o
    unfold Fl.lineIntersection Line.intersection
    rw [show Fl.cross .exact l.direction o.direction = l.direction.cross o.direction from rfl]
    split_ifs with h
    · rfl
    · rw [show Fl.lineT .exact l o = pyDiv (l.direction.normal.dot (l.origin.sub o.origin)) (l.direction.normal.dot o.direction) from rfl]
      simp only [bind, Except.bind, pure, Except.pure]
      rcases pyDiv (l.direction.normal.dot (l.origin.sub o.origin)) (l.direction.normal.dot o.direction) with e | t <;> rfl
  · intro l o
    unfold Fl.segmentIntersection Line.segmentIntersection
    rw [show Fl.segmentBBox .exact l = l.segmentBBox from rfl, show Fl.segmentBBox .exact o = o.segmentBBox from rfl,
      show Fl.lineT .exact l o = pyDiv (l.direction.normal.dot (l.origin.sub o.origin)) (l.direction.normal.dot o.direction) from rfl,
      show Fl.lineT .exact o l = pyDiv (o.direction.normal.dot (o.origin.sub l.origin)) (o.direction.normal.dot l.direction) from rfl,
      show Fl.lineParallel .exact l o = l.parallel o from rfl]
    simp only [bind, Except.bind, pure, Except.pure, throw, throwThe, MonadExceptOf.throw]
    rcases l.segmentBBox.overlaps o.segmentBBox with e | _ | _
    · rfl
    · rfl
    · simp only [Bool.not_true, Bool.false_eq_true, if_false]
      by_cases hp : l.parallel o
      · simp only [hp, if_true]
      · simp only [hp, Bool.false_eq_true, if_false]
        rcases pyDiv (l.direction.normal.dot (l.origin.sub o.origin)) (l.direction.normal.dot o.direction) with e | t
        · rfl
        · simp only
          by_cases h1 : t < 0 ∨ t > 1
          · simp only [h1, if_true]
          · simp only [h1, if_false]
            rcases pyDiv (o.direction.normal.dot (o.origin.sub l.origin)) (o.direction.normal.dot l.direction) with e | s <;> rfl

/-! ### Exceptions and parallel lines -/

/-- C89: the computed cross product never has the wrong sign, and is 0 for vectors that are exactly parallel. -/
theorem C89_cross_sign (v w : Vec ℝ) :
    (0 < Fl.cross R v w → 0 < v.x * w.y - v.y * w.x) ∧ (Fl.cross R v w < 0 → v.x * w.y - v.y * w.x < 0) ∧
    (v.x * w.y - v.y * w.x = 0 → Fl.cross R v w = 0) := by
  have key : ∀ a b : ℝ, a ≤ b → R.fl (R.fl a - R.fl b) ≤ 0 := fun a b h => R.fl_nonpos (sub_nonpos.2 (R.mono _ _ h))
  have key' : ∀ a b : ℝ, b ≤ a → 0 ≤ R.fl (R.fl a - R.fl b) := fun a b h => R.fl_nonneg (sub_nonneg.2 (R.mono _ _ h))
  refine ⟨?_, ?_, ?_⟩
  · intro h
    by_contra hc
    exact absurd (key _ _ (by linarith)) (not_le.2 h)
  · intro h
    by_contra hc
    exact absurd (key' _ _ (by linarith)) (not_le.2 h)
  · intro h
    simp only [Fl.cross, sub_eq_zero.1 h, sub_self, R.fl_zero]

/-- C89: `parallel` is symmetric and every line is parallel to itself; lines that are exactly parallel are recognised. -/
theorem C89_parallel (l o : Line ℝ) :
    Fl.lineParallel R l o = Fl.lineParallel R o l ∧ Fl.lineParallel R l l = true ∧
    (l.direction.x * o.direction.y - l.direction.y * o.direction.x = 0 → Fl.lineParallel R l o = true) := by
  refine ⟨?_, ?_, ?_⟩
  · unfold Fl.lineParallel
    rw [Fl.cross_swap]
    simp
  · simp only [Fl.lineParallel, decide_eq_true_eq]
    exact (C89_cross_sign R _ _).2.2 (by ring)
  · intro h
    simp only [Fl.lineParallel, decide_eq_true_eq]
    exact (C89_cross_sign R _ _).2.2 h

/-- C89: neither `intersection` nor `segment_intersection` ever divides by zero. `intersection` raises `ParallelLineError`, exactly
for lines that `parallel` accepts, and nothing else; `segment_intersection` raises `ParallelLineError`, and then `parallel` is
true, or `AssertionError`, and nothing else. -/
theorem C89_exceptions (hyp : ℝ → ℝ → ℝ) (l o : Line ℝ) :
    (Fl.lineParallel R l o = true → Fl.lineIntersection R l o = .error .parallelLine) ∧
    (Fl.lineParallel R l o = false → ∃ p, Fl.lineIntersection R l o = .ok p) ∧
    (∀ e, Fl.segmentIntersection R hyp l o = .error e → e = .parallelLine ∧ Fl.lineParallel R l o = true ∨ e = .assertion) := by
  simp only [Fl.lineParallel, decide_eq_true_eq, decide_eq_false_iff_not]
  refine ⟨?_, ?_, ?_⟩
  · intro h; rw [Fl.lineIntersection, if_pos h]
  · intro h; rw [Fl.lineIntersection, if_neg h, Fl.lineT_eq h]; exact ⟨_, rfl⟩
  · intro e h
    rw [Fl.segmentIntersection_eq] at h
    split_ifs at h with h1 h2 h3 h4
    · left; exact ⟨by cases h; rfl, h2⟩
    · right; cases h; rfl

/-- C89: the converse fails at every precision from 3 digits: the directions `(1 + ε, 1)` and `(1 + 2ε, 1 + ε)`, where `ε` is the
distance from 1 to the next float, are not parallel, but are taken to be, and the lines' intersection is not found. -/
theorem C89_parallel_counterexample (p : ℕ) (hp : 3 ≤ p) :
    ∃ l o : Line ℝ, (Rnd.binary p (by omega)).RepLine l ∧ (Rnd.binary p (by omega)).RepLine o ∧
      l.direction.x * o.direction.y - l.direction.y * o.direction.x ≠ 0 ∧ (∃ q, l.OnLine q ∧ o.OnLine q) ∧
      Fl.lineParallel (.binary p (by omega)) l o = true ∧
      Fl.lineIntersection (.binary p (by omega)) l o = .error .parallelLine := by
  obtain ⟨q, rfl⟩ : ∃ q, p = q + 1 := ⟨p - 1, by omega⟩
  have hq : 2 ≤ q := by omega
  have hE : (4 : ℝ) ≤ 2 ^ q := by
    calc (4 : ℝ) = 2 ^ 2 := by norm_num
      _ ≤ 2 ^ q := pow_le_pow_right₀ (by norm_num) hq
  have hEz : (4 : ℤ) ≤ 2 ^ q := by exact_mod_cast hE
  have hinv : (2 : ℝ) ^ (-(q : ℤ)) = (2 ^ q)⁻¹ := by rw [zpow_neg, zpow_natCast]
  set ε : ℝ := (2 ^ q)⁻¹ with hε
  have hε0 : 0 < ε := by positivity
  have hεE : ε * 2 ^ q = 1 := inv_mul_cancel₀ (by positivity)
  have hε4 : ε ≤ 1 / 4 := by
    rw [hε]; rw [inv_le_comm₀ (by positivity) (by norm_num)]; norm_num; exact hE
  have rep : ∀ n : ℤ, |n| ≤ 2 → flBin (q + 1) (1 + n * ε) = 1 + n * ε := by
    intro n hn
    have := flBin_rep (q + 1) (by omega) (2 ^ q + n) (-(q : ℤ)) (by
      rw [abs_le] at hn ⊢
      rw [pow_succ]
      constructor <;> linarith [hn.1, hn.2])
    rw [hinv] at this
    push_cast at this
    rw [show ((2 : ℝ) ^ q + n) * ε = 1 + n * ε by rw [add_mul, mul_comm _ ε, hεE]] at this
    exact this
  have r1 : flBin (q + 1) (1 + ε) = 1 + ε := by have := rep 1 (by norm_num); simpa using this
  have r2 : flBin (q + 1) (1 + 2 * ε) = 1 + 2 * ε := by have := rep 2 (by norm_num); simpa using this
  have r0 : flBin (q + 1) 1 = 1 := by have := rep 0 (by norm_num); simpa using this
  have z0 := flBin_zero (q + 1)
  have e0 : (0 : ℤ) - ((q + 1 : ℕ) : ℤ) + 1 = -(q : ℤ) := by push_cast; ring
  have sq : flBin (q + 1) ((1 + ε) * (1 + ε)) = 1 + 2 * ε := by
    have := Fl.flBin_eq (q + 1) ((1 + ε) * (1 + ε)) 0 (2 ^ q + 2) (by rw [abs_of_pos (by positivity), zpow_zero]; nlinarith)
      (by rw [abs_of_pos (by positivity), zero_add, zpow_one]; nlinarith)
      (by
        have e : (1 + ε) * (1 + ε) / 2 ^ ((0 : ℤ) - ((q + 1 : ℕ) : ℤ) + 1) - ((2 ^ q + 2 : ℤ) : ℝ) = ε := by
          rw [e0, hinv, hε, div_inv_eq_mul, ← hε]
          push_cast
          linear_combination (2 + ε) * hεE
        constructor
        · rw [e, abs_of_pos hε0]; linarith
        · intro h; rw [e, abs_of_pos hε0] at h; exfalso; linarith)
    rw [this, e0, hinv]
    push_cast
    linear_combination hεE
  have hpar : Fl.cross (.binary (q + 1) (by omega)) ⟨1 + ε, 1⟩ ⟨1 + 2 * ε, 1 + ε⟩ = 0 := by
    show flBin (q + 1) (flBin (q + 1) ((1 + ε) * (1 + ε)) - flBin (q + 1) (1 * (1 + 2 * ε))) = 0
    rw [sq, one_mul, r2, sub_self, z0]
  refine ⟨⟨⟨0, 0⟩, ⟨1 + ε, 1⟩⟩, ⟨⟨0, 0⟩, ⟨1 + 2 * ε, 1 + ε⟩⟩, ⟨⟨z0, z0⟩, r1, r0⟩, ⟨⟨z0, z0⟩, r2, r1⟩, ?_,
    ⟨⟨0, 0⟩, ⟨0, by simp [Line.at']⟩, ⟨0, by simp [Line.at']⟩⟩, ?_, ?_⟩
  · have : (1 + ε) * (1 + ε) - 1 * (1 + 2 * ε) = ε * ε := by ring
    simp only [this]; positivity
  · simp only [Fl.lineParallel, decide_eq_true_eq]; exact hpar
  · rw [Fl.lineIntersection, if_pos hpar]

/-! ### Points of a segment -/

/-- C89: for `0 ≤ t ≤ 1` the computed point `origin + direction*t`, in particular the midpoint, is in `segment_bbox`, without
tolerance; for 0 it is `p1`, for 1 it is `p2`, and both are in the box too. -/
theorem C89_points_in_box (l : Line ℝ) (hl : R.RepLine l) :
    (∀ t, 0 ≤ t → t ≤ 1 → Fl.lineAt R l t ∈ (Fl.segmentBBox R l).Region) ∧ Fl.lineMid R l ∈ (Fl.segmentBBox R l).Region ∧
    l.origin ∈ (Fl.segmentBBox R l).Region ∧ Fl.lineP2 R l ∈ (Fl.segmentBBox R l).Region ∧
    Fl.lineAt R l 0 = l.origin ∧ Fl.lineAt R l 1 = Fl.lineP2 R l := by
  obtain ⟨⟨h1, h2⟩, h3, h4⟩ := hl
  have key : ∀ t, 0 ≤ t → t ≤ 1 → Fl.lineAt R l t ∈ (Fl.segmentBBox R l).Region := fun t t0 t1 =>
    ⟨Fl.step_between h1 h3 t0 t1, Fl.step_between h2 h4 t0 t1⟩
  have e0 : Fl.lineAt R l 0 = l.origin := by
    unfold Rep at h1 h2
    apply Pt.ext <;> simp [Fl.lineAt, Fl.addVector, Fl.smul, R.fl_zero, h1, h2]
  have e1 : Fl.lineAt R l 1 = Fl.lineP2 R l := by
    unfold Rep at h3 h4
    apply Pt.ext <;> simp [Fl.lineAt, Fl.lineP2, Fl.addVector, Fl.smul, h3, h4]
  exact ⟨key, key _ (by norm_num) (by norm_num), e0 ▸ key 0 le_rfl (by norm_num), e1 ▸ key 1 (by norm_num) le_rfl, e0, e1⟩

/-- C89: the other end of `Line.from_pts(p, q)` is `q` up to two roundings, and exactly `q` if the points are equal or `p` is the
origin. -/
theorem C89_from_pts (p q : Pt ℝ) :
    Within (R.gam 2 * (|q.x| + 2 * |p.x|)) (R.gam 2 * (|q.y| + 2 * |p.y|)) (Fl.lineP2 R (Fl.lineFromPts R p q)) q ∧
    (R.RepPt q → p = ⟨0, 0⟩ ∨ p = q → Fl.lineP2 R (Fl.lineFromPts R p q) = q) := by
  constructor
  · have key : ∀ x b : ℝ, |R.fl (b + R.fl (x - b)) - x| ≤ R.gam 2 * (|x| + 2 * |b|) := by
      intro x b
      have := (((Near.of_abs (R := R) x).sub (Near.of_abs b)).add (Near.of_abs b)).2
      rw [sub_add_cancel, add_assoc |x|, ← two_mul, add_comm _ b] at this
      exact this
    exact ⟨key _ _, key _ _⟩
  · rintro ⟨hx, hy⟩ (rfl | rfl)
    · unfold Rep at hx hy
      apply Pt.ext <;> simp [Fl.lineP2, Fl.lineFromPts, Fl.addVector, Fl.sub, hx, hy]
    · unfold Rep at hx hy
      apply Pt.ext <;> simp [Fl.lineP2, Fl.lineFromPts, Fl.addVector, Fl.sub, R.fl_zero, hx, hy]

/-- C89: it is not `q` in general, at any precision: the line from `2^p` to 1/4 ends at 0, outside of the box of the line the
other way. -/
theorem C89_from_pts_counterexample (p : ℕ) (hp : 1 ≤ p) :
    (Rnd.binary p hp).RepPt ⟨1 / 4, 0⟩ ∧ (Rnd.binary p hp).RepPt ⟨2 ^ p, 0⟩ ∧
    Fl.lineP2 (.binary p hp) (Fl.lineFromPts (.binary p hp) ⟨2 ^ p, 0⟩ ⟨1 / 4, 0⟩) = ⟨0, 0⟩ ∧
    (⟨0, 0⟩ : Pt ℝ) ∉ (Fl.segmentBBox (.binary p hp) (Fl.lineFromPts (.binary p hp) ⟨1 / 4, 0⟩ ⟨2 ^ p, 0⟩)).Region := by
  have zp : (2 : ℝ) ^ ((p : ℤ)) = 2 ^ p := zpow_natCast 2 p
  have f0 : flBin p 0 = 0 := flBin_zero p
  have fp : flBin p (2 ^ p) = 2 ^ p := by
    have := flBin_rep p hp 1 p (by simpa using one_le_pow₀ (by norm_num : (1 : ℤ) ≤ 2))
    rw [zp] at this; simpa using this
  have fq : flBin p (1 / 4) = 1 / 4 := by
    have := flBin_rep p hp 1 (-2) (by simpa using one_le_pow₀ (by norm_num : (1 : ℤ) ≤ 2))
    norm_num at this ⊢; exact this
  have fn : flBin p (1 / 4 - 2 ^ p) = -2 ^ p := by
    rw [show (1 / 4 - 2 ^ p : ℝ) = -(2 ^ p - 1 / 4) by ring, flBin_neg, Fl.flBin_sub_quarter p hp]
  have hR : ∀ x, (Rnd.binary p hp).fl x = flBin p x := fun _ => rfl
  refine ⟨⟨fq, f0⟩, ⟨fp, f0⟩, ?_, ?_⟩
  · simp only [Fl.lineP2, Fl.lineFromPts, Fl.addVector, Fl.sub, hR, fn, f0, add_neg_cancel, sub_zero, add_zero]
  · rintro ⟨⟨h, -⟩, -⟩
    have h' : min (1 / 4) ((Rnd.binary p hp).fl (1 / 4 + (Rnd.binary p hp).fl (2 ^ p - 1 / 4))) ≤ 0 := h
    rw [hR, hR, Fl.flBin_sub_quarter p hp] at h'
    have : (1 / 4 : ℝ) ≤ flBin p (1 / 4 + 2 ^ p) := by
      rw [← fq]
      conv_rhs => rw [fq]
      exact flBin_mono p hp _ _ (by have : (0 : ℝ) < 2 ^ p := by positivity
                                    linarith)
    rw [min_eq_left this] at h'
    norm_num at h'

/-- C89: `closest` raises exactly for direction 0, and is otherwise the foot of the perpendicular, as computed without rounding, up to
`2k + 7` roundings of the coordinate of the origin plus the distances of the point from the origin, if the error of `math.hypot`
counts as `k` roundings. -/
theorem C89_closest (e : ℝ) (he : 0 ≤ e) (he1 : e < 1) (k : ℕ) (hk : e / (1 - e) ≤ R.gam k) (hyp : ℝ → ℝ → ℝ)
    (hh : HypotLaw e hyp) (l : Line ℝ) (p : Pt ℝ) :
    (l.direction = ⟨0, 0⟩ → Fl.lineClosest R hyp l p = .error .zeroDivision) ∧
    (l.direction ≠ ⟨0, 0⟩ → ∃ q q', l.closest p = .ok q ∧ Fl.lineClosest R hyp l p = .ok q' ∧
      Within (R.gam (2 * k + 7) * (|l.origin.x| + (|p.x - l.origin.x| + |p.y - l.origin.y|)))
        (R.gam (2 * k + 7) * (|l.origin.y| + (|p.x - l.origin.x| + |p.y - l.origin.y|))) q' q) := by
  constructor
  · intro h
    have := hh 0 0
    simp only [mul_zero, add_zero, Real.sqrt_zero, sub_zero, abs_nonpos_iff] at this
    simp [Fl.lineClosest, h, Fl.unit, this]
  · intro hv
    obtain ⟨⟨ox, oy⟩, ⟨vx, vy⟩⟩ := l
    simp only at hv ⊢
    have hsq : 0 < vx * vx + vy * vy := by
      rcases lt_or_eq_of_le (add_nonneg (mul_self_nonneg vx) (mul_self_nonneg vy)) with h | h
      · exact h
      · exfalso; apply hv
        have h1 : vx * vx = 0 := by linarith [mul_self_nonneg vx, mul_self_nonneg vy]
        have h2 : vy * vy = 0 := by linarith [mul_self_nonneg vx, mul_self_nonneg vy]
        exact Vec.ext (mul_self_eq_zero.1 h1) (mul_self_eq_zero.1 h2)
    have hL := hh vx vy
    set m := √(vx * vx + vy * vy) with hm
    have hmpos : 0 < m := Real.sqrt_pos.2 hsq
    have hmm : m * m = vx * vx + vy * vy := Real.mul_self_sqrt hsq.le
    set L := hyp vx vy with hLdef
    rw [abs_le] at hL
    have hLlow : (1 - e) * m ≤ L := by linarith [hL.1]
    have hLpos : 0 < L := lt_of_lt_of_le (mul_pos (by linarith) hmpos) hLlow
    have hinv : R.Near k (1 / L) (1 / m) (1 / m) := by
      refine ⟨by rw [abs_of_pos (by positivity)], ?_⟩
      have e1 : 1 / L - 1 / m = (m - L) / (L * m) := by field_simp
      rw [e1, abs_div, abs_of_pos (mul_pos hLpos hmpos)]
      have h1 : |m - L| ≤ e * m := by rw [abs_le]; constructor <;> linarith [hL.1, hL.2]
      calc |m - L| / (L * m) ≤ e * m / ((1 - e) * m * m) := by
            apply div_le_div₀ (by positivity) h1 (mul_pos (mul_pos (by linarith) hmpos) hmpos)
            exact mul_le_mul_of_nonneg_right hLlow hmpos.le
        _ = e / (1 - e) * (1 / m) := by
            have : 1 - e ≠ 0 := by linarith
            field_simp
        _ ≤ R.gam k * (1 / m) := mul_le_mul_of_nonneg_right hk (by positivity)
    have hux : R.Near (k + 1) (R.fl (vx / L)) (vx / m) 1 := by
      have := ((Near.of_abs (R := R) vx).mul' hinv).fl
      rw [mul_one_div, mul_one_div] at this
      refine this.mono (by omega) ?_
      rw [mul_one_div, div_le_one hmpos, hm]
      exact Real.abs_le_sqrt (by nlinarith [mul_self_nonneg vy])
    have huy : R.Near (k + 1) (R.fl (vy / L)) (vy / m) 1 := by
      have := ((Near.of_abs (R := R) vy).mul' hinv).fl
      rw [mul_one_div, mul_one_div] at this
      refine this.mono (by omega) ?_
      rw [mul_one_div, div_le_one hmpos, hm]
      exact Real.abs_le_sqrt (by nlinarith [mul_self_nonneg vx])
    have hrx : R.Near 1 (R.fl (p.x - ox)) (p.x - ox) |p.x - ox| := (Near.of_abs _).fl
    have hry : R.Near 1 (R.fl (p.y - oy)) (p.y - oy) |p.y - oy| := (Near.of_abs _).fl
    have hd := (hrx.mul hux).add (hry.mul huy)
    have hx := (Near.of_abs (R := R) ox).add (hux.mul hd)
    have hy := (Near.of_abs (R := R) oy).add (huy.mul hd)
    simp only [one_mul, mul_one] at hx hy
    have hun : Fl.unit R hyp ⟨vx, vy⟩ = .ok ⟨R.fl (vx / L), R.fl (vy / L)⟩ := by
      unfold Fl.unit; rw [if_neg hLpos.ne']
    have hun' : (⟨vx, vy⟩ : Vec ℝ).unit = .ok ⟨vx / m, vy / m⟩ := by
      have hml : (⟨vx, vy⟩ : Vec ℝ).length = m := rfl
      unfold Vec.unit
      simp only [hml]
      rw [if_neg hmpos.ne']
    refine ⟨⟨ox + vx / m * ((p.x - ox) * (vx / m) + (p.y - oy) * (vy / m)), oy + vy / m * ((p.x - ox) * (vx / m) + (p.y - oy) * (vy / m))⟩,
      ⟨R.fl (ox + R.fl (R.fl (vx / L) * R.fl (R.fl (R.fl (p.x - ox) * R.fl (vx / L)) + R.fl (R.fl (p.y - oy) * R.fl (vy / L))))),
       R.fl (oy + R.fl (R.fl (vy / L) * R.fl (R.fl (R.fl (p.x - ox) * R.fl (vx / L)) + R.fl (R.fl (p.y - oy) * R.fl (vy / L)))))⟩,
      ?_, ?_, ?_, ?_⟩
    · unfold Line.closest; rw [hun']; rfl
    · unfold Fl.lineClosest; rw [hun]; rfl
    · exact (hx.mono (by omega) le_rfl).2
    · exact (hy.mono (by omega) le_rfl).2

/-! ### Intersections -/

/-- C89: what a result of `segment_intersection` says: both parameters are between 0 and 1, the point is the computed one of the
other segment at its parameter, it lies in the box of the other segment, and the computed distance to the point of this segment at
its parameter, which lies in the box of this segment, is below the tolerance; the lines are not parallel and the boxes overlap. -/
theorem C89_segment_sound (hyp : ℝ → ℝ → ℝ) (l o : Line ℝ) (hl : R.RepLine l) (ho : R.RepLine o) (p : Pt ℝ) (s t : ℝ)
    (h : Fl.segmentIntersection R hyp l o = .ok (some (p, s, t))) :
    0 ≤ s ∧ s ≤ 1 ∧ 0 ≤ t ∧ t ≤ 1 ∧ p = Fl.lineAt R o t ∧ p ∈ (Fl.segmentBBox R o).Region ∧
    Fl.lineAt R l s ∈ (Fl.segmentBBox R l).Region ∧
    hyp (Fl.sub R (Fl.lineAt R l s) p).x (Fl.sub R (Fl.lineAt R l s) p).y < R.fl (1 / 10 ^ 7) ∧
    Fl.lineParallel R l o = false ∧ (Fl.segmentBBox R l).overlaps (Fl.segmentBBox R o) = .ok true := by
  rw [Fl.segmentIntersection_eq] at h
  split_ifs at h with h1 h2 h3 h4
  · cases h
  · cases h
  · simp only [Except.ok.injEq, Option.some.injEq, Prod.mk.injEq] at h
    obtain ⟨rfl, rfl, rfl⟩ := h
    push Not at h3
    obtain ⟨⟨a, b⟩, c, d⟩ := h3
    refine ⟨c, d, a, b, rfl, (C89_points_in_box R o ho).1 _ a b, (C89_points_in_box R l hl).1 _ c d, h4, ?_, ?_⟩
    · simpa [Fl.lineParallel] using h2
    · obtain ⟨r, hr⟩ := Fl.segmentBBox_overlaps (R := R) l o
      cases r
      · exact absurd hr h1
      · exact hr

/-- C89: `segment_intersection` gives the same answer the other way round, with the same parameters; only the point may be another
(that of the other segment). -/
theorem C89_segment_symm (hyp : ℝ → ℝ → ℝ) (heven : ∀ x y, hyp (-x) (-y) = hyp x y) (l o : Line ℝ) :
    (∀ e, Fl.segmentIntersection R hyp l o = .error e → Fl.segmentIntersection R hyp o l = .error e) ∧
    (Fl.segmentIntersection R hyp l o = .ok none → Fl.segmentIntersection R hyp o l = .ok none) ∧
    (∀ p s t, Fl.segmentIntersection R hyp l o = .ok (some (p, s, t)) →
      Fl.segmentIntersection R hyp o l = .ok (some (Fl.lineAt R l s, t, s))) := by
  have hs : ∀ p q : Pt ℝ, hyp (Fl.sub R p q).x (Fl.sub R p q).y = hyp (Fl.sub R q p).x (Fl.sub R q p).y := by
    intro p q
    rw [← heven]
    simp only [Fl.sub, ← R.neg, neg_sub]
  have hc : Fl.cross R o.direction l.direction = 0 ↔ Fl.cross R l.direction o.direction = 0 := by
    rw [Fl.cross_swap]; exact neg_eq_zero
  have hor : ((Fl.lineQ R o l < 0 ∨ Fl.lineQ R o l > 1) ∨ Fl.lineQ R l o < 0 ∨ Fl.lineQ R l o > 1) ↔
      ((Fl.lineQ R l o < 0 ∨ Fl.lineQ R l o > 1) ∨ Fl.lineQ R o l < 0 ∨ Fl.lineQ R o l > 1) := or_comm
  rw [Fl.segmentIntersection_eq hyp o l, Fl.segmentIntersection_eq hyp l o, Fl.overlaps_swap]
  simp only [hc, hor, hs (Fl.lineAt R o _) (Fl.lineAt R l _)]
  split_ifs with h1 h2 h3 h4
  · simp
  · simp
  · simp
  · simp only [reduceCtorEq, false_implies, implies_true, Except.ok.injEq, Option.some.injEq, Prod.mk.injEq, true_and]
    rintro p s t ⟨-, rfl, rfl⟩
    exact ⟨rfl, rfl, rfl⟩
  · simp

/-- C89: how good a computed intersection is. `c` is the cross product of the directions, `C` the size of its two products, `N` the
size of the two products in the numerator of the parameter; `C / |c|` tells how near the lines are to being parallel. If the lines
are not so near to parallel that rounding can hide it (`gam 2 * C < |c|`), the intersection is computed, and it is the common point
`q` of the two lines up to the relative error `(1 + u)² (1 + η) - 1`. -/
theorem C89_intersection_near (l o : Line ℝ) (c C N η : ℝ)
    (hc : c = l.direction.x * o.direction.y - l.direction.y * o.direction.x)
    (hC : C = |l.direction.x| * |o.direction.y| + |l.direction.y| * |o.direction.x|)
    (hN : N = |l.direction.y| * |l.origin.x - o.origin.x| + |l.direction.x| * |l.origin.y - o.origin.y|)
    (hη : η = (1 + R.u) * ((R.gam 3 * |c| + R.gam 2 * C) / (|c| - R.gam 2 * C)) + R.u)
    (hwell : R.gam 2 * C < |c|) :
    ∃ q q', l.OnLine q ∧ o.OnLine q ∧ Fl.lineIntersection R l o = .ok q' ∧
      Within (((1 + R.u) ^ 2 * (1 + η) - 1) * (|o.origin.x| + |o.direction.x| * (N / |c|)))
        (((1 + R.u) ^ 2 * (1 + η) - 1) * (|o.origin.y| + |o.direction.y| * (N / |c|))) q' q := by
  have hu := R.u_nonneg
  have g2 := R.gam_nonneg 2
  have g3 := R.gam_nonneg 3
  obtain ⟨⟨ax, ay⟩, ⟨dx, dy⟩⟩ := l
  obtain ⟨⟨bx, by'⟩, ⟨ex, ey⟩⟩ := o
  simp only at hc hC hN ⊢
  have hC0 : 0 ≤ C := by rw [hC]; positivity
  have hN0 : 0 ≤ N := by rw [hN]; positivity
  have hc0 : 0 < |c| := lt_of_le_of_lt (mul_nonneg g2 hC0) hwell
  have hcne : c ≠ 0 := abs_pos.1 hc0
  -- the computed denominator and numerator
  have ncr : R.Near 2 (Fl.cross R ⟨dx, dy⟩ ⟨ex, ey⟩) c C := by
    have n : ∀ x y : ℝ, R.Near 1 (R.fl (x * y)) (x * y) (|x| * |y|) := fun x y => (Near.of_abs x).mul (Near.of_abs y)
    rw [hc, hC]
    exact (n dx ey).sub (n dy ex)
  have nden := ncr.neg
  have nnum : R.Near 3 (Fl.dot R (Fl.normal ⟨dx, dy⟩) (Fl.sub R ⟨ax, ay⟩ ⟨bx, by'⟩)) (dy * (ax - bx) + -dx * (ay - by')) N := by
    have n : ∀ v x y : ℝ, R.Near 2 (R.fl (v * R.fl (x - y))) (v * (x - y)) (|v| * |x - y|) := fun v x y =>
      (Near.of_abs v).mul (Near.of_abs (x - y)).fl
    have := (n dy ax bx).add (n (-dx) ay by')
    rw [abs_neg] at this
    rw [hN]
    exact this
  set n := dy * (ax - bx) + -dx * (ay - by') with hn
  set n' := Fl.dot R (Fl.normal ⟨dx, dy⟩) (Fl.sub R ⟨ax, ay⟩ ⟨bx, by'⟩) with hn'
  set d' := -Fl.cross R ⟨dx, dy⟩ ⟨ex, ey⟩ with hd'
  have hd'low : |c| - R.gam 2 * C ≤ |d'| := by
    have h1 := nden.2
    have h2 := abs_sub_abs_le_abs_sub (-c) d'
    rw [abs_neg] at h2
    rw [abs_sub_comm] at h1
    linarith
  have hpos : 0 < |c| - R.gam 2 * C := by linarith
  have hd'pos : 0 < |d'| := lt_of_lt_of_le hpos hd'low
  have hd'ne : d' ≠ 0 := abs_pos.1 hd'pos
  have hcr : Fl.cross R ⟨dx, dy⟩ ⟨ex, ey⟩ ≠ 0 := by rw [hd'] at hd'ne; exact neg_ne_zero.1 hd'ne
  -- the parameter
  have hT0 : 0 ≤ N / |c| := by positivity
  have ht : |n / -c| ≤ N / |c| := by
    rw [abs_div, abs_neg]; exact div_le_div_of_nonneg_right nnum.1 hc0.le
  have hq : |n' / d' - n / -c| ≤ (R.gam 3 * |c| + R.gam 2 * C) / (|c| - R.gam 2 * C) * (N / |c|) := by
    have e1 : n' / d' - n / -c = ((n' - n) * -c + n * (-c - d')) / (d' * -c) := by field_simp; ring
    rw [e1, abs_div, abs_mul d', abs_neg c]
    have e2 : (R.gam 3 * |c| + R.gam 2 * C) / (|c| - R.gam 2 * C) * (N / |c|) =
        (R.gam 3 * N * |c| + N * (R.gam 2 * C)) / ((|c| - R.gam 2 * C) * |c|) := by
      field_simp
    rw [e2]
    apply div_le_div₀ (by positivity) _ (by positivity) (mul_le_mul_of_nonneg_right hd'low hc0.le)
    calc |(n' - n) * -c + n * (-c - d')| ≤ |(n' - n) * -c| + |n * (-c - d')| := abs_add_le _ _
      _ = |n' - n| * |c| + |n| * |-c - d'| := by rw [abs_mul, abs_neg, abs_mul]
      _ ≤ R.gam 3 * N * |c| + N * (R.gam 2 * C) := by
        have h1 := nden.2
        rw [abs_sub_comm] at h1
        exact add_le_add (mul_le_mul_of_nonneg_right nnum.2 hc0.le) (mul_le_mul nnum.1 h1 (abs_nonneg _) hN0)
  set ρ := (R.gam 3 * |c| + R.gam 2 * C) / (|c| - R.gam 2 * C) with hρ
  have hρ0 : 0 ≤ ρ := by rw [hρ]; positivity
  have hη0 : 0 ≤ η := by rw [hη]; positivity
  set t := n / -c with htdef
  set t' := R.fl (n' / d') with ht'
  have htt : |t' - t| ≤ η * (N / |c|) := by
    have h1 := R.err (n' / d')
    have h2 : |n' / d'| ≤ |t| + ρ * (N / |c|) := by
      have := abs_sub_abs_le_abs_sub (n' / d') t
      linarith
    calc |t' - t| ≤ |t' - n' / d'| + |n' / d' - t| := abs_sub_le _ _ _
      _ ≤ R.u * (N / |c| + ρ * (N / |c|)) + ρ * (N / |c|) := by
        refine add_le_add (h1.trans (mul_le_mul_of_nonneg_left ?_ hu)) hq
        linarith
      _ = η * (N / |c|) := by rw [hη]; ring
  have step : ∀ b e : ℝ, |R.fl (b + R.fl (e * t')) - (b + t * e)| ≤
      ((1 + R.u) ^ 2 * (1 + η) - 1) * (|b| + |e| * (N / |c|)) := by
    intro b e
    set T := N / |c| with hT
    have h1 : |e * t' - e * t| ≤ η * (|e| * T) := by
      rw [← mul_sub, abs_mul]
      calc |e| * |t' - t| ≤ |e| * (η * T) := mul_le_mul_of_nonneg_left htt (abs_nonneg _)
        _ = η * (|e| * T) := by ring
    have h2 : |e * t| ≤ |e| * T := by rw [abs_mul]; exact mul_le_mul_of_nonneg_left ht (abs_nonneg _)
    have hS : 0 ≤ |e| * T := by positivity
    have h3 : |e * t'| ≤ (1 + η) * (|e| * T) := by
      have := abs_sub_abs_le_abs_sub (e * t') (e * t)
      linarith
    have h4 : |R.fl (e * t') - e * t| ≤ ((1 + R.u) * (1 + η) - 1) * (|e| * T) := by
      calc |R.fl (e * t') - e * t| ≤ |R.fl (e * t') - e * t'| + |e * t' - e * t| := abs_sub_le _ _ _
        _ ≤ R.u * ((1 + η) * (|e| * T)) + η * (|e| * T) :=
          add_le_add ((R.err _).trans (mul_le_mul_of_nonneg_left h3 hu)) h1
        _ = _ := by ring
    have h5 : |R.fl (e * t')| ≤ (1 + R.u) * (1 + η) * (|e| * T) := by
      have := abs_sub_abs_le_abs_sub (R.fl (e * t')) (e * t)
      linarith
    have h6 : |b + R.fl (e * t')| ≤ |b| + (1 + R.u) * (1 + η) * (|e| * T) := (abs_add_le _ _).trans (by linarith)
    calc |R.fl (b + R.fl (e * t')) - (b + t * e)|
        ≤ |R.fl (b + R.fl (e * t')) - (b + R.fl (e * t'))| + |b + R.fl (e * t') - (b + t * e)| := abs_sub_le _ _ _
      _ ≤ R.u * (|b| + (1 + R.u) * (1 + η) * (|e| * T)) + ((1 + R.u) * (1 + η) - 1) * (|e| * T) := by
        refine add_le_add ((R.err _).trans (mul_le_mul_of_nonneg_left h6 hu)) ?_
        rw [show b + R.fl (e * t') - (b + t * e) = R.fl (e * t') - e * t by ring]
        exact h4
      _ = R.u * |b| + ((1 + R.u) ^ 2 * (1 + η) - 1) * (|e| * T) := by ring
      _ ≤ _ := by
        have : R.u * |b| ≤ ((1 + R.u) ^ 2 * (1 + η) - 1) * |b| := by
          apply mul_le_mul_of_nonneg_right _ (abs_nonneg _)
          nlinarith [mul_nonneg hu hη0, mul_nonneg (mul_nonneg hu hu) hη0, mul_nonneg hu hu]
        linarith
  refine ⟨⟨bx + t * ex, by' + t * ey⟩, ⟨R.fl (bx + R.fl (ex * t')), R.fl (by' + R.fl (ey * t'))⟩, ?_, ⟨t, rfl⟩, ?_, step _ _, step _ _⟩
  · refine ⟨((ex * (by' - ay) - ey * (bx - ax)) / -c), ?_⟩
    rw [Line.at', Pt.mk.injEq, htdef, hn]
    constructor
    · field_simp
      rw [hc]; ring
    · field_simp
      rw [hc]; ring
  · unfold Fl.lineIntersection
    rw [if_neg hcr, Fl.lineT_eq hcr]
    have : Fl.lineQ R ⟨⟨ax, ay⟩, ⟨dx, dy⟩⟩ ⟨⟨bx, by'⟩, ⟨ex, ey⟩⟩ = t' := by
      rw [ht', hd', ← Fl.normal_dot]; rfl
    simp only [this]
    rfl

/-- C89: for whole coordinates up to `2^24` and Python floats, `segment_intersection` finds every proper crossing: no exception, both
parameters are the exact ones rounded once, and the point is the exact one up to three roundings. -/
theorem C89_whole_crossing (hu53 : R.u ≤ 2 ^ (-53 : ℤ)) (e : ℝ) (he1 : e ≤ 1 / 10) (hyp : ℝ → ℝ → ℝ)
    (hh : HypotLaw e hyp) (l o : Line ℝ) (hl : l.Whole (2 ^ 24)) (ho : o.Whole (2 ^ 24)) (s t : ℝ)
    (hc : l.direction.x * o.direction.y - l.direction.y * o.direction.x ≠ 0) (hs0 : 0 < s) (hs1 : s < 1) (ht0 : 0 < t) (ht1 : t < 1)
    (h : l.at' s = o.at' t) :
    ∃ p, Fl.segmentIntersection R hyp l o = .ok (some (p, R.fl s, R.fl t)) ∧
      Within (R.gam 3 * (|o.origin.x| + |o.direction.x|)) (R.gam 3 * (|o.origin.y| + |o.direction.y|)) p (l.at' s) := by
  have hu := R.u_nonneg
  obtain ⟨a1, a2, d1, d2, rfl, ha1, ha2, hd1, hd2⟩ := hl
  obtain ⟨b1, b2, e1, e2, rfl, hb1, hb2, he1', he2⟩ := ho
  simp only at hc ⊢
  simp only [Line.at', Pt.mk.injEq] at h
  obtain ⟨hx, hy⟩ := h
  have hu' : R.u ≤ 1 / 9007199254740992 := by rw [zpow_neg] at hu53; norm_num at hu53 ⊢; exact hu53
  norm_num at ha1 ha2 hd1 hd2 hb1 hb2 he1' he2
  have ex : ∀ n : ℤ, |(n : ℝ)| ≤ 9007199254740992 → R.fl n = n := by
    intro n hn
    apply R.int
    calc |(n : ℝ)| * R.u ≤ 9007199254740992 * (1 / 9007199254740992) := mul_le_mul hn hu' hu (by norm_num)
      _ = 1 := by norm_num
  have prod : ∀ {x y X Y : ℝ}, |x| ≤ X → |y| ≤ Y → |x * y| ≤ X * Y := fun hx hy => by
    rw [abs_mul]; exact mul_le_mul hx hy (abs_nonneg _) ((abs_nonneg _).trans hx)
  have dif : ∀ {x y X Y : ℝ}, |x| ≤ X → |y| ≤ Y → |x - y| ≤ X + Y := fun hx hy => (abs_sub _ _).trans (add_le_add hx hy)
  have sm : ∀ {x y X Y : ℝ}, |x| ≤ X → |y| ≤ Y → |x + y| ≤ X + Y := fun hx hy => (abs_add_le _ _).trans (add_le_add hx hy)
  -- exact intermediate results
  have exm : ∀ x y : ℤ, |(x : ℝ)| ≤ 33554432 → |(y : ℝ)| ≤ 33554432 → R.fl ((x : ℝ) * y) = x * y := by
    intro x y hx hy
    have := ex (x * y) (by push_cast; exact (prod hx hy).trans (by norm_num))
    push_cast at this; exact this
  have exs : ∀ x y : ℤ, |(x : ℝ)| ≤ 33554432 → |(y : ℝ)| ≤ 33554432 → R.fl ((x : ℝ) - y) = x - y := by
    intro x y hx hy
    have := ex (x - y) (by push_cast; exact (dif hx hy).trans (by norm_num))
    push_cast at this; exact this
  have exa : ∀ x y : ℤ, |(x : ℝ)| ≤ 33554432 → |(y : ℝ)| ≤ 33554432 → R.fl ((x : ℝ) + y) = x + y := by
    intro x y hx hy
    have := ex (x + y) (by push_cast; exact (sm hx hy).trans (by norm_num))
    push_cast at this; exact this
  have w : ∀ {x : ℤ}, |(x : ℝ)| ≤ 16777216 → |(x : ℝ)| ≤ 33554432 := fun h => h.trans (by norm_num)
  have cr : ∀ x y z v : ℤ, |(x : ℝ)| ≤ 33554432 → |(y : ℝ)| ≤ 33554432 → |(z : ℝ)| ≤ 33554432 → |(v : ℝ)| ≤ 33554432 →
      R.fl (R.fl ((x : ℝ) * y) - R.fl ((z : ℝ) * v)) = x * y - z * v := by
    intro x y z v hx hy hz hv
    rw [exm x y hx hy, exm z v hz hv]
    have := ex (x * y - z * v) (by push_cast; exact (dif (prod hx hy) (prod hz hv)).trans (by norm_num))
    push_cast at this; exact this
  have cross_eq : ∀ x y z v : ℤ, |(x : ℝ)| ≤ 33554432 → |(y : ℝ)| ≤ 33554432 → |(z : ℝ)| ≤ 33554432 → |(v : ℝ)| ≤ 33554432 →
      Fl.cross R ⟨x, y⟩ ⟨z, v⟩ = x * v - y * z := fun x y z v hx hy hz hv => cr x v y z hx hv hy hz
  have sub_eq : ∀ x y z v : ℤ, |(x : ℝ)| ≤ 16777216 → |(y : ℝ)| ≤ 16777216 → |(z : ℝ)| ≤ 16777216 → |(v : ℝ)| ≤ 16777216 →
      Fl.sub R ⟨x, y⟩ ⟨z, v⟩ = ⟨((x - z : ℤ) : ℝ), ((y - v : ℤ) : ℝ)⟩ := by
    intro x y z v hx hy hz hv
    simp only [Fl.sub, exs x z (w hx) (w hz), exs y v (w hy) (w hv)]
    push_cast; rfl
  have quo : ∀ x1 x2 v1 v2 y1 y2 w1 w2 : ℤ, |(x1 : ℝ)| ≤ 16777216 → |(x2 : ℝ)| ≤ 16777216 → |(v1 : ℝ)| ≤ 16777216 →
      |(v2 : ℝ)| ≤ 16777216 → |(y1 : ℝ)| ≤ 16777216 → |(y2 : ℝ)| ≤ 16777216 → |(w1 : ℝ)| ≤ 16777216 → |(w2 : ℝ)| ≤ 16777216 →
      (v1 : ℝ) * w2 - v2 * w1 ≠ 0 → ∀ r q : ℝ, (x1 : ℝ) + r * v1 = y1 + q * w1 → (x2 : ℝ) + r * v2 = y2 + q * w2 →
      Fl.lineQ R ⟨⟨x1, x2⟩, ⟨v1, v2⟩⟩ ⟨⟨y1, y2⟩, ⟨w1, w2⟩⟩ = R.fl q := by
    intro x1 x2 v1 v2 y1 y2 w1 w2 hx1 hx2 hv1 hv2 hy1 hy2 hw1 hw2 hne r q g1 g2
    have b1 : |((x1 - y1 : ℤ) : ℝ)| ≤ 33554432 := by push_cast; exact (dif hx1 hy1).trans (by norm_num)
    have b2 : |((x2 - y2 : ℤ) : ℝ)| ≤ 33554432 := by push_cast; exact (dif hx2 hy2).trans (by norm_num)
    unfold Fl.lineQ
    simp only [Fl.normal_dot]
    rw [sub_eq x1 x2 y1 y2 hx1 hx2 hy1 hy2, cross_eq v1 v2 (x1 - y1) (x2 - y2) (w hv1) (w hv2) b1 b2,
      cross_eq v1 v2 w1 w2 (w hv1) (w hv2) (w hw1) (w hw2)]
    congr 1
    rw [neg_div_neg_eq, div_eq_iff hne]
    push_cast
    linear_combination v1 * g2 - v2 * g1
  have q1 := quo a1 a2 d1 d2 b1 b2 e1 e2 ha1 ha2 hd1 hd2 hb1 hb2 he1' he2 hc s t hx hy
  have q2 := quo b1 b2 e1 e2 a1 a2 d1 d2 hb1 hb2 he1' he2 ha1 ha2 hd1 hd2 (by intro h0; apply hc; linarith) t s hx.symm hy.symm
  have ts0 : ∀ q, 0 < q → q < 1 → ¬ (R.fl q < 0 ∨ R.fl q > 1) := by
    intro q h0 h1
    push Not
    exact ⟨R.fl_nonneg h0.le, R.fl_le_of_rep h1.le R.rep_one⟩
  have bb : ∀ x1 x2 v1 v2 : ℤ, |(x1 : ℝ)| ≤ 16777216 → |(x2 : ℝ)| ≤ 16777216 → |(v1 : ℝ)| ≤ 16777216 → |(v2 : ℝ)| ≤ 16777216 →
      Fl.segmentBBox R ⟨⟨x1, x2⟩, ⟨v1, v2⟩⟩ = Line.segmentBBox (⟨⟨x1, x2⟩, ⟨v1, v2⟩⟩ : Line ℝ) := by
    intro x1 x2 v1 v2 hx1 hx2 hv1 hv2
    simp only [Fl.segmentBBox, Line.segmentBBox, Fl.lineP2, Fl.addVector, Pt.addVector, exa x1 v1 (w hx1) (w hv1),
      exa x2 v2 (w hx2) (w hv2)]
  have hov : (Line.segmentBBox (⟨⟨a1, a2⟩, ⟨d1, d2⟩⟩ : Line ℝ)).overlaps (Line.segmentBBox ⟨⟨b1, b2⟩, ⟨e1, e2⟩⟩) ≠ .ok false := by
    intro h0
    have h1 := Line.C20_proper_crossing_found (⟨⟨a1, a2⟩, ⟨d1, d2⟩⟩ : Line ℝ) ⟨⟨b1, b2⟩, ⟨e1, e2⟩⟩ s t hc hs0 hs1 ht0 ht1
      (by simp only [Line.at', Pt.mk.injEq]; exact ⟨hx, hy⟩)
    have h2 := (Line.C20_found_iff_boxes_overlap (⟨⟨a1, a2⟩, ⟨d1, d2⟩⟩ : Line ℝ) ⟨⟨b1, b2⟩, ⟨e1, e2⟩⟩ s t hc hs0.le hs1.le ht0.le ht1.le
      (by simp only [Line.at', Pt.mk.injEq]; exact ⟨hx, hy⟩)).2 h0
    rw [h1] at h2
    cases h2
  -- the two points
  have near : ∀ x v q : ℝ, 0 < q → q < 1 → |R.fl (x + R.fl (v * R.fl q)) - (x + q * v)| ≤ R.gam 3 * (|x| + |v|) := by
    intro x v q h0 h1
    have hq : R.Near 1 (R.fl q) q 1 := (Near.of_le (R := R) (x := q) (A := 1) (by rw [abs_of_pos h0]; exact h1.le)).fl
    have := (Near.of_abs (R := R) x).add ((Near.of_abs v).mul hq)
    rw [mul_one, mul_comm v q] at this
    exact (this.mono (n := 3) (by norm_num) le_rfl).2
  have hg3 : R.gam 3 ≤ 6 * (1 / 9007199254740992) := by
    have := R.gam_le 3 (by push_cast; linarith)
    push_cast at this; linarith
  have hg0 := R.gam_nonneg 3
  have small : ∀ x v y z q r : ℝ, |x| ≤ 16777216 → |v| ≤ 16777216 → |y| ≤ 16777216 → |z| ≤ 16777216 → 0 < q → q < 1 → 0 < r → r < 1 →
      x + q * v = y + r * z →
      |R.fl (R.fl (x + R.fl (v * R.fl q)) - R.fl (y + R.fl (z * R.fl r)))| ≤ 5 / 10 ^ 8 := by
    intro x v y z q r hx hv hy hz q0 q1 r0 r1 g
    have n1 := near x v q q0 q1
    have n2 := near y z r r0 r1
    have m1 : R.gam 3 * (|x| + |v|) ≤ 6 * (1 / 9007199254740992) * 33554432 :=
      mul_le_mul hg3 (by linarith) (by positivity) (by norm_num)
    have m2 : R.gam 3 * (|y| + |z|) ≤ 6 * (1 / 9007199254740992) * 33554432 :=
      mul_le_mul hg3 (by linarith) (by positivity) (by norm_num)
    set A := R.fl (x + R.fl (v * R.fl q))
    set B := R.fl (y + R.fl (z * R.fl r))
    have hAB : |A - B| ≤ 12 * (1 / 9007199254740992) * 33554432 := by
      rw [abs_le] at n1 n2 ⊢
      constructor <;> linarith [n1.1, n1.2, n2.1, n2.2]
    have hf := Fl.abs_fl_le (R := R) (A - B)
    calc |R.fl (A - B)| ≤ (1 + R.u) * |A - B| := hf
      _ ≤ (1 + 1 / 9007199254740992) * (12 * (1 / 9007199254740992) * 33554432) :=
        mul_le_mul (by linarith) hAB (abs_nonneg _) (by norm_num)
      _ ≤ 5 / 10 ^ 8 := by norm_num
  refine ⟨Fl.lineAt R ⟨⟨b1, b2⟩, ⟨e1, e2⟩⟩ (R.fl t), ?_, ?_⟩
  · rw [Fl.segmentIntersection_eq, bb a1 a2 d1 d2 ha1 ha2 hd1 hd2, bb b1 b2 e1 e2 hb1 hb2 he1' he2, if_neg hov,
      cross_eq d1 d2 e1 e2 (w hd1) (w hd2) (w he1') (w he2), if_neg hc, q1, q2, if_neg (not_or.2 ⟨ts0 t ht0 ht1, ts0 s hs0 hs1⟩), if_pos]
    have s1 := small a1 d1 b1 e1 s t ha1 hd1 hb1 he1' hs0 hs1 ht0 ht1 hx
    have s2 := small a2 d2 b2 e2 s t ha2 hd2 hb2 he2 hs0 hs1 ht0 ht1 hy
    set X := (Fl.sub R (Fl.lineAt R ⟨⟨a1, a2⟩, ⟨d1, d2⟩⟩ (R.fl s)) (Fl.lineAt R ⟨⟨b1, b2⟩, ⟨e1, e2⟩⟩ (R.fl t))).x with hX
    set Y := (Fl.sub R (Fl.lineAt R ⟨⟨a1, a2⟩, ⟨d1, d2⟩⟩ (R.fl s)) (Fl.lineAt R ⟨⟨b1, b2⟩, ⟨e1, e2⟩⟩ (R.fl t))).y with hY
    have s1' : |X| ≤ 5 / 10 ^ 8 := s1
    have s2' : |Y| ≤ 5 / 10 ^ 8 := s2
    have hsq : √(X * X + Y * Y) ≤ 8 / 10 ^ 8 := by
      rw [Real.sqrt_le_left (by norm_num)]
      have e1 : X * X ≤ (5 / 10 ^ 8) * (5 / 10 ^ 8) := by rw [← abs_mul_abs_self X]; exact mul_le_mul s1' s1' (abs_nonneg _) (by norm_num)
      have e2 : Y * Y ≤ (5 / 10 ^ 8) * (5 / 10 ^ 8) := by rw [← abs_mul_abs_self Y]; exact mul_le_mul s2' s2' (abs_nonneg _) (by norm_num)
      nlinarith
    have hH := (abs_le.1 (hh X Y)).2
    have h0 := Real.sqrt_nonneg (X * X + Y * Y)
    have hlow := R.le_fl (x := 1 / 10 ^ 7) (by norm_num)
    have : hyp X Y ≤ (1 + 1 / 10) * (8 / 10 ^ 8) := by
      have : e * √(X * X + Y * Y) ≤ 1 / 10 * √(X * X + Y * Y) := mul_le_mul_of_nonneg_right he1 h0
      nlinarith
    have hh2 : (1 - 1 / 9007199254740992) * (1 / 10 ^ 7) ≤ (1 - R.u) * (1 / 10 ^ 7) := mul_le_mul_of_nonneg_right (by linarith) (by norm_num)
    norm_num at this hlow hh2 ⊢
    linarith
  · simp only [Line.at', hx, hy]
    exact ⟨near _ _ _ ht0 ht1, near _ _ _ ht0 ht1⟩

/-- C89: a proper crossing can be missed, at every precision: `(2^p, 0)` with direction `(1/4, 0)` and `(2^p, -1)` with direction
`(1/4, 2)` cross in the middle of both, but the boxes have no width. -/
theorem C89_crossing_missed_counterexample (p : ℕ) (hp : 1 ≤ p) (hyp : ℝ → ℝ → ℝ) :
    ∃ l o : Line ℝ, (Rnd.binary p hp).RepLine l ∧ (Rnd.binary p hp).RepLine o ∧
      l.direction.x * o.direction.y - l.direction.y * o.direction.x ≠ 0 ∧ l.at' (1 / 2) = o.at' (1 / 2) ∧
      Fl.segmentIntersection (.binary p hp) hyp l o = .ok none := by
  have zp : (2 : ℝ) ^ ((p : ℤ)) = 2 ^ p := zpow_natCast 2 p
  have one : (1 : ℤ) ≤ 2 ^ p := one_le_pow₀ (by norm_num)
  have hR : ∀ x, (Rnd.binary p hp).fl x = flBin p x := fun _ => rfl
  have f0 : flBin p 0 = 0 := flBin_zero p
  have fp : flBin p (2 ^ p) = 2 ^ p := by
    have := flBin_rep p hp 1 p (by simpa using one)
    rw [zp] at this; simpa using this
  have fq : flBin p (1 / 4) = 1 / 4 := by
    have := flBin_rep p hp 1 (-2) (by simpa using one)
    norm_num at this ⊢; exact this
  have f1 : flBin p 1 = 1 := by simpa using flBin_rep p hp 1 0 (by simpa using one)
  have f2 : flBin p 2 = 2 := by simpa using flBin_rep p hp 1 1 (by simpa using one)
  have fm : flBin p (-1) = -1 := by rw [flBin_neg, f1]
  have fs : flBin p (2 ^ p + 1 / 4) = 2 ^ p := by
    have two : (2 : ℝ) ≤ 2 ^ p := by
      calc (2 : ℝ) = 2 ^ 1 := by norm_num
        _ ≤ 2 ^ p := pow_le_pow_right₀ (by norm_num) hp
    have zq : (2 : ℝ) ^ ((p : ℤ) + 1) = 2 ^ p * 2 := by rw [zpow_add₀ (by norm_num), zp, zpow_one]
    have z1 : (p : ℤ) - p + 1 = 1 := by ring
    have := Fl.flBin_eq p (2 ^ p + 1 / 4) p (2 ^ (p - 1))
      (by rw [abs_of_pos (by positivity), zp]; linarith)
      (by rw [abs_of_pos (by positivity), zq]; linarith)
      (by
        have e : ((2 : ℝ) ^ p + 1 / 4) / 2 ^ ((p : ℤ) - p + 1) - ((2 ^ (p - 1) : ℤ) : ℝ) = 1 / 8 := by
          rw [z1, zpow_one]
          push_cast
          have : (2 : ℝ) ^ p = 2 ^ (p - 1) * 2 := by rw [← pow_succ]; congr 1; omega
          rw [this]; ring
        constructor
        · rw [e]; norm_num [abs_of_pos]
        · intro h; rw [e] at h; norm_num [abs_of_pos] at h)
    rw [this, z1, zpow_one]
    push_cast
    rw [← pow_succ]; congr 1; omega
  refine ⟨⟨⟨2 ^ p, 0⟩, ⟨1 / 4, 0⟩⟩, ⟨⟨2 ^ p, -1⟩, ⟨1 / 4, 2⟩⟩, ⟨⟨fp, f0⟩, fq, f0⟩, ⟨⟨fp, fm⟩, fq, f2⟩, by norm_num, ?_, ?_⟩
  · simp only [Line.at', Pt.mk.injEq]; norm_num
  · rw [Fl.segmentIntersection_eq, if_pos]
    simp only [Fl.segmentBBox, Fl.lineP2, Fl.addVector, hR, fs, BBox.ofPts, BBox.mk', BBox.overlaps, min_self, max_self, ge_iff_le,
      le_refl, true_or, if_true]

/-- C89: the internal assertion of `segment_intersection` can fail for Python floats, for whole coordinates of `2^31`: the segment
from `(0, 0)` to `(2^31, 2^31)` and the segment from `(2^31, 0)` to `(0, 2^30)` cross properly, but `AssertionError` is raised. -/
theorem C89_assertion_counterexample (e : ℝ) (he1 : e ≤ 1 / 10) (hyp : ℝ → ℝ → ℝ) (hh : HypotLaw e hyp) :
    ∃ l o : Line ℝ, l.Whole (2 ^ 31) ∧ o.Whole (2 ^ 31) ∧ (∃ s t : ℝ, 0 < s ∧ s < 1 ∧ 0 < t ∧ t < 1 ∧ l.at' s = o.at' t) ∧
      l.direction.x * o.direction.y - l.direction.y * o.direction.x ≠ 0 ∧
      Fl.segmentIntersection (.binary 53 (by norm_num)) hyp l o = .error .assertion := by
  have hp : 1 ≤ 53 := by norm_num
  have hR : ∀ x, (Rnd.binary 53 hp).fl x = flBin 53 x := fun _ => rfl
  have rep : ∀ (n k : ℤ), |n| ≤ 2 ^ 53 → ∀ x : ℝ, x = n * 2 ^ k → flBin 53 x = x := by
    intro n k h x hx
    rw [hx]; exact flBin_rep 53 hp n k h
  have third : flBin 53 (1 / 3) = 6004799503160661 / 18014398509481984 := by
    have := Fl.flBin_eq 53 (1 / 3) (-2) 6004799503160661 (by norm_num [abs_of_pos]) (by norm_num [abs_of_pos])
      (by constructor
          · norm_num [abs_le]
          · intro h; norm_num [abs_of_neg] at h)
    rw [this]; norm_num
  have two3 : flBin 53 (2 / 3) = 6004799503160661 / 9007199254740992 := by
    rw [show (2 / 3 : ℝ) = 2 * (1 / 3) by norm_num, flBin_dbl, third]; norm_num
  refine ⟨⟨⟨((0 : ℤ) : ℝ), ((0 : ℤ) : ℝ)⟩, ⟨((2147483648 : ℤ) : ℝ), ((2147483648 : ℤ) : ℝ)⟩⟩,
    ⟨⟨((2147483648 : ℤ) : ℝ), ((0 : ℤ) : ℝ)⟩, ⟨((-2147483648 : ℤ) : ℝ), ((1073741824 : ℤ) : ℝ)⟩⟩,
    ⟨_, _, _, _, rfl, by norm_num, by norm_num, by norm_num, by norm_num⟩,
    ⟨_, _, _, _, rfl, by norm_num, by norm_num, by norm_num, by norm_num⟩,
    ⟨1 / 3, 2 / 3, by norm_num, by norm_num, by norm_num, by norm_num, by simp only [Line.at', Pt.mk.injEq]; norm_num⟩,
    by norm_num, ?_⟩
  have h0 := flBin_zero 53
  have r1 : flBin 53 2147483648 = 2147483648 := rep 1 31 (by norm_num) _ (by norm_num)
  have r1' : flBin 53 (-2147483648) = -2147483648 := rep (-1) 31 (by norm_num) _ (by norm_num)
  have r2 : flBin 53 1073741824 = 1073741824 := rep 1 30 (by norm_num) _ (by norm_num)
  have r3 : flBin 53 (-4611686018427387904) = -4611686018427387904 := rep (-1) 62 (by norm_num) _ (by norm_num)
  have r3' : flBin 53 4611686018427387904 = 4611686018427387904 := rep 1 62 (by norm_num) _ (by norm_num)
  have r4 : flBin 53 (-2305843009213693952) = -2305843009213693952 := rep (-1) 61 (by norm_num) _ (by norm_num)
  have r4' : flBin 53 2305843009213693952 = 2305843009213693952 := rep 1 61 (by norm_num) _ (by norm_num)
  have r5 : flBin 53 (-6917529027641081856) = -6917529027641081856 := rep (-3) 61 (by norm_num) _ (by norm_num)
  have r5' : flBin 53 6917529027641081856 = 6917529027641081856 := rep 3 61 (by norm_num) _ (by norm_num)
  have r6 : flBin 53 (6004799503160661 / 8388608) = 6004799503160661 / 8388608 := rep 6004799503160661 (-23) (by norm_num) _ (by norm_num)
  have r7 : flBin 53 (-(6004799503160661 / 4194304)) = -(6004799503160661 / 4194304) :=
    rep (-6004799503160661) (-22) (by norm_num) _ (by norm_num)
  have r8 : flBin 53 (3002399751580331 / 4194304) = 3002399751580331 / 4194304 := rep 3002399751580331 (-22) (by norm_num) _ (by norm_num)
  have r9 : flBin 53 (-(1 / 8388608)) = -(1 / 8388608) := rep (-1) (-23) (by norm_num) _ (by norm_num)
  set l : Line ℝ := ⟨⟨((0 : ℤ) : ℝ), ((0 : ℤ) : ℝ)⟩, ⟨((2147483648 : ℤ) : ℝ), ((2147483648 : ℤ) : ℝ)⟩⟩ with hl
  set o : Line ℝ := ⟨⟨((2147483648 : ℤ) : ℝ), ((0 : ℤ) : ℝ)⟩, ⟨((-2147483648 : ℤ) : ℝ), ((1073741824 : ℤ) : ℝ)⟩⟩ with ho
  have qlo : Fl.lineQ (.binary 53 hp) l o = 6004799503160661 / 9007199254740992 := by
    rw [← two3]
    simp only [Fl.lineQ, Fl.dot, Fl.normal, Fl.sub, hR, hl, ho]
    norm_num [h0, r1, r1', r2, r3, r3', r4, r4', r5, r5']
  have qol : Fl.lineQ (.binary 53 hp) o l = 6004799503160661 / 18014398509481984 := by
    rw [← third]
    simp only [Fl.lineQ, Fl.dot, Fl.normal, Fl.sub, hR, hl, ho]
    norm_num [h0, r1, r1', r2, r3, r3', r4, r4', r5, r5']
  have pl : Fl.lineAt (.binary 53 hp) l (6004799503160661 / 18014398509481984) = ⟨6004799503160661 / 8388608, 6004799503160661 / 8388608⟩ := by
    simp only [Fl.lineAt, Fl.addVector, Fl.smul, hR, hl]
    norm_num [r6]
  have po : Fl.lineAt (.binary 53 hp) o (6004799503160661 / 9007199254740992) = ⟨3002399751580331 / 4194304, 6004799503160661 / 8388608⟩ := by
    simp only [Fl.lineAt, Fl.addVector, Fl.smul, hR, ho]
    norm_num [r6, r7, r8]
  have sb : Fl.sub (.binary 53 hp) ⟨6004799503160661 / 8388608, 6004799503160661 / 8388608⟩ ⟨3002399751580331 / 4194304, 6004799503160661 / 8388608⟩ =
      ⟨-(1 / 8388608), 0⟩ := by
    simp only [Fl.sub, hR, sub_self, h0]
    rw [show (6004799503160661 / 8388608 - 3002399751580331 / 4194304 : ℝ) = -(1 / 8388608) by norm_num, r9]
  have hcr : Fl.cross (.binary 53 hp) l.direction o.direction ≠ 0 := by
    simp only [Fl.cross, hR, hl, ho]
    norm_num [h0, r1, r1', r2, r3, r3', r4, r4', r5, r5']
  have hbb : (Fl.segmentBBox (.binary 53 hp) l).overlaps (Fl.segmentBBox (.binary 53 hp) o) ≠ .ok false := by
    simp only [Fl.segmentBBox, Fl.lineP2, Fl.addVector, hR, hl, ho, BBox.ofPts, BBox.mk', BBox.overlaps]
    norm_num [h0, r1, r2]
  rw [Fl.segmentIntersection_eq, if_neg hbb, if_neg hcr, qlo, qol, if_neg (by norm_num), pl, po, sb, if_neg]
  have hH := (abs_le.1 (hh (-(1 / 8388608)) 0)).1
  have hs : √(-(1 / 8388608) * -(1 / 8388608) + 0 * 0 : ℝ) = 1 / 8388608 := by
    rw [show (-(1 / 8388608) * -(1 / 8388608) + 0 * 0 : ℝ) = (1 / 8388608) ^ 2 by norm_num]
    exact Real.sqrt_sq (by norm_num)
  rw [hs] at hH
  have hup := (Rnd.binary 53 hp).fl_le (x := 1 / 10 ^ 7) (by norm_num)
  have hu : (Rnd.binary 53 hp).u = 1 / 9007199254740992 := by
    show (2 : ℝ) ^ (-((53 : ℕ) : ℤ)) = _
    norm_num
  rw [hu] at hup
  have : e * (1 / 8388608) ≤ 1 / 10 * (1 / 8388608) := mul_le_mul_of_nonneg_right he1 (by norm_num)
  simp only [not_lt]
  norm_num at hup this hH ⊢
  linarith

/-- The hypotheses of `C89_intersection_near` and of `C89_whole_crossing` are met by the diagonals of a square, for Python floats. -/
example : ∃ l o : Line ℝ, (Rnd.binary 53 (by norm_num)).RepLine l ∧ l.Whole (2 ^ 24) ∧ o.Whole (2 ^ 24) ∧ l.at' (1 / 2) = o.at' (1 / 2) ∧
    (Rnd.binary 53 (by norm_num)).u ≤ 2 ^ (-53 : ℤ) ∧
    (Rnd.binary 53 (by norm_num)).gam 2 * (|l.direction.x| * |o.direction.y| + |l.direction.y| * |o.direction.x|) <
      |l.direction.x * o.direction.y - l.direction.y * o.direction.x| ∧
    HypotLaw 0 hypot := by
  have hu : (Rnd.binary 53 (by norm_num)).u = 1 / 9007199254740992 := by
    show (2 : ℝ) ^ (-((53 : ℕ) : ℤ)) = _
    norm_num
  have f : ∀ n : ℤ, |n| ≤ 2 → flBin 53 n = n := by
    intro n hn
    have := flBin_rep 53 (by norm_num) n 0 (hn.trans (by norm_num))
    simpa using this
  refine ⟨⟨⟨(0 : ℤ), (0 : ℤ)⟩, ⟨(2 : ℤ), (2 : ℤ)⟩⟩, ⟨⟨(0 : ℤ), (2 : ℤ)⟩, ⟨(2 : ℤ), (-2 : ℤ)⟩⟩,
    ⟨⟨f 0 (by norm_num), f 0 (by norm_num)⟩, f 2 (by norm_num), f 2 (by norm_num)⟩,
    ⟨_, _, _, _, rfl, by norm_num, by norm_num, by norm_num, by norm_num⟩,
    ⟨_, _, _, _, rfl, by norm_num, by norm_num, by norm_num, by norm_num⟩, by simp only [Line.at', Pt.mk.injEq]; norm_num, ?_, ?_, ?_⟩
  · rw [hu]; norm_num
  · rw [Rnd.gam, hu]; norm_num
  · intro x y; simp [hypot]

end X7
