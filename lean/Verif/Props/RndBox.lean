import Verif.Lemmas.Fl
import Verif.Lemmas.BBox

/-!
C85: boxes, midpoints and transformed boxes under rounding. `R` is any rounding with the properties of `Rnd`.
-/

namespace X7
open Rnd
variable (R : Rnd)

/-- C85: without rounding the rounded versions are the exact models that the other properties are about. -/
theorem C85_exact_model :
    (∀ mode m p, Fl.apply .exact mode m p = m.apply p) ∧ (∀ mode m n, Fl.mul .exact mode m n = m.mul n) ∧
    (∀ p q, Fl.mid .exact p q = p.mid q) ∧ (∀ b, Fl.center .exact b = b.center) ∧
    (∀ b, Fl.width .exact b = b.width) ∧ (∀ b, Fl.height .exact b = b.height) ∧ (∀ b, Fl.area .exact b = b.area) ∧
    (∀ b ex ey, Fl.expand .exact b ex ey = b.expand ex ey) ∧ (∀ cps, Fl.curveBBox .exact cps = bboxCps cps) ∧
    (∀ p q t, Fl.bezSplit .exact p q t = bezSplit p q t) ∧
    (∀ a b c d n, Fl.bezXY .exact a b c d n = bezXY a b c d n) ∧
    (∀ f cps closed n, Fl.bezPath .exact f cps closed n = bezPath f cps closed n) := by
  refine ⟨?_, ?_, fun _ _ => rfl, ?_, ?_, ?_, ?_, ?_, ?_, fun _ _ _ => rfl, fun _ _ _ _ _ => rfl,
    fun _ _ _ _ => rfl⟩
  · intro mode m p
    cases mode <;> simp [Fl.apply, Fl.dot3, Mat3.apply, Rnd.exact, add_assoc]
  · intro mode m n
    cases mode <;> simp [Fl.mul, Fl.dot3, Mat3.mul, Rnd.exact, add_assoc]
  all_goals
    intro b
    cases b <;> first | rfl | (intro _ ey; cases ey <;> rfl)

/-- C85: the midpoint of two points lies in the box they span, in spite of rounding. -/
theorem C85_mid_between (p q : Pt ℝ) (hp : R.RepPt p) (hq : R.RepPt q) : Fl.mid R p q ∈ (BBox.ofPts p q).Region := by
  obtain ⟨a, b⟩ := Fl.mid_between hp.1 hq.1
  obtain ⟨c, d⟩ := Fl.mid_between hp.2 hq.2
  exact ⟨⟨a, b⟩, c, d⟩

/-- C85: the centre of a box lies in the box. -/
theorem C85_center_inside (b : BBox ℝ) (hb : b.Norm) (hr : R.RepBox b) (c : Pt ℝ) (hc : Fl.center R b = .ok c) :
    c ∈ b.Region := by
  cases b with
  | none => cases hc
  | box xl yl xh yh =>
    cases hc
    obtain ⟨⟨r1, r2⟩, r3, r4⟩ := hr
    have h1 := Fl.mid_between r1 r3
    have h2 := Fl.mid_between r2 r4
    rw [min_eq_left hb.1, max_eq_right hb.1] at h1
    rw [min_eq_left hb.2, max_eq_right hb.2] at h2
    exact ⟨h1, h2⟩

/-- C85: `transformed` computed with rounding, in whatever order numpy adds up, still encloses the computed image of every
point of the box: no tolerance is needed. -/
theorem C85_transformed_encloses (mode : DotMode) (m : Mat3 ℝ) (b b' : BBox ℝ) (h : b.transformed (Fl.apply R mode m) = .ok b')
    (p : Pt ℝ) (hp : p ∈ b.Region) : Fl.apply R mode m p ∈ b'.Region := by
  cases b with
  | none => exact absurd hp (by simp [BBox.Region])
  | box xl yl xh yh =>
    obtain ⟨⟨hx1, hx2⟩, hy1, hy2⟩ := hp
    have hcor : ∀ x y, (x = xl ∨ x = xh) → (y = yl ∨ y = yh) → Fl.apply R mode m ⟨x, y⟩ ∈ b'.Region := by
      intro x y hx hy
      simp only [BBox.transformed, BBox.pll, BBox.plh, BBox.phh, BBox.phl, bind, Except.bind, pure, Except.pure,
        Except.ok.injEq] at h
      subst h
      simp only [BBox.ofPts, BBox.mk', BBox.add, BBox.Region, Set.mem_setOf_eq]
      rcases hx with rfl | rfl <;> rcases hy with rfl | rfl <;> simp
    cases b' with
    | none => exact absurd (hcor xl yl (Or.inl rfl) (Or.inl rfl)) (by simp [BBox.Region])
    | box xl' yl' xh' yh' =>
      refine ⟨⟨?_, ?_⟩, ?_, ?_⟩
      · obtain ⟨x, y, hx, hy, hle⟩ := Fl.le_dot3_corner (R := R) mode m.a m.b m.c 1 hx1 hx2 hy1 hy2
        exact (hcor x y hx hy).1.1.trans hle
      · obtain ⟨x, y, hx, hy, hle⟩ := Fl.dot3_corner_le (R := R) mode m.a m.b m.c 1 hx1 hx2 hy1 hy2
        exact hle.trans (hcor x y hx hy).1.2
      · obtain ⟨x, y, hx, hy, hle⟩ := Fl.le_dot3_corner (R := R) mode m.d m.e m.f 1 hx1 hx2 hy1 hy2
        exact (hcor x y hx hy).2.1.trans hle
      · obtain ⟨x, y, hx, hy, hle⟩ := Fl.dot3_corner_le (R := R) mode m.d m.e m.f 1 hx1 hx2 hy1 hy2
        exact hle.trans (hcor x y hx hy).2.2

/-- C85: the exact image of a point of the box is no further from the computed box than three roundings of the summands. -/
theorem C85_transformed_exact_image (mode : DotMode) (m : Mat3 ℝ) (b b' : BBox ℝ)
    (h : b.transformed (Fl.apply R mode m) = .ok b') (p : Pt ℝ) (hp : p ∈ b.Region) :
    ∃ q ∈ b'.Region, Within (R.gam 3 * rowSizeX m p) (R.gam 3 * rowSizeY m p) q (m.apply p) :=
  ⟨_, C85_transformed_encloses R mode m b b' h p hp,
    (Fl.apply_near_x mode m (Near.of_abs p.x) (Near.of_abs p.y)).2,
    (Fl.apply_near_y mode m (Near.of_abs p.x) (Near.of_abs p.y)).2⟩

/-- C85: the tolerance of `C85_transformed_exact_image` is needed: with two binary digits, the box `[1, 3]` scaled by 3 is
`[3, 8]`, but 3 is mapped to 9. -/
theorem C85_transformed_exact_counterexample :
    ∃ (R : Rnd) (m : Mat3 ℝ) (b b' : BBox ℝ) (p : Pt ℝ), R.RepBox b ∧ R.RepPt p ∧ p ∈ b.Region ∧
      b.transformed (Fl.apply R .left m) = .ok b' ∧ m.apply p ∉ b'.Region := by
  have f3 : flBin 2 3 = 3 := by
    have := flBin_rep 2 (by norm_num) 3 0 (by norm_num); simpa using this
  have f1 : flBin 2 1 = 1 := by
    have := flBin_rep 2 (by norm_num) 1 0 (by norm_num); simpa using this
  have f0 : flBin 2 0 = 0 := flBin_zero 2
  have f8 : flBin 2 8 = 8 := by
    have := flBin_rep 2 (by norm_num) 1 3 (by norm_num); norm_num at this; exact this
  have f9 : flBin 2 9 = 8 := by
    have := Fl.flBin_eq 2 9 3 2 (by rw [abs_of_pos (by norm_num)]; norm_num) (by rw [abs_of_pos (by norm_num)]; norm_num)
      (by
        constructor
        · rw [abs_le]; norm_num
        · intro h; norm_num at h)
    rw [this]; norm_num
  refine ⟨.binary 2 (by norm_num), .of6 3 0 0 0 3 0, .box 1 1 3 3, .box 3 3 8 8, ⟨3, 3⟩, ⟨⟨f1, f1⟩, f3, f3⟩, ⟨f3, f3⟩,
    by simp [BBox.Region], ?_, ?_⟩
  · simp only [BBox.transformed, BBox.pll, BBox.plh, BBox.phh, BBox.phl, bind, Except.bind, pure, Except.pure,
      Fl.apply, Fl.dot3, Mat3.of6, Rnd.binary, Except.ok.injEq]
    norm_num [f0, f1, f3, f8, f9, BBox.ofPts, BBox.mk', BBox.add]
  · simp [BBox.Region, Mat3.apply, Mat3.of6]; norm_num

/-- C85: expanding a box moves each side by the amount asked for, up to one rounding, and the result contains the box. -/
theorem C85_expand_grows (b b' : BBox ℝ) (hb : b.Norm) (hr : R.RepBox b) (ex : ℝ) (ey : Option ℝ) (hx : 0 ≤ ex)
    (hy : ∀ e ∈ ey, 0 ≤ e) (h : Fl.expand R b ex ey = .ok b') :
    b.Region ⊆ b'.Region ∧ b'.Norm ∧
    ∃ xl yl xh yh xl' yl' xh' yh', b = .box xl yl xh yh ∧ b' = .box xl' yl' xh' yh' ∧
      |xl' - (xl - ex)| ≤ R.u * |xl - ex| ∧ |xh' - (xh + ex)| ≤ R.u * |xh + ex| ∧
      |yl' - (yl - ey.getD ex)| ≤ R.u * |yl - ey.getD ex| ∧ |yh' - (yh + ey.getD ex)| ≤ R.u * |yh + ey.getD ex| := by
  cases b with
  | none => cases h
  | box xl yl xh yh =>
    obtain ⟨⟨r1, r2⟩, r3, r4⟩ := hr
    obtain ⟨n1, n2⟩ := hb
    have key : ∀ {l h e : ℝ}, l ≤ h → 0 ≤ e → max e (R.fl (-R.fl (h - l) / 2)) = e := by
      intro l h e hl he
      apply max_eq_left
      refine (R.fl_nonpos ?_).trans he
      have := R.fl_nonneg (x := h - l) (by linarith)
      linarith
    have hey : 0 ≤ ey.getD ex := by
      cases ey with
      | none => exact hx
      | some e => exact hy e rfl
    have he : Fl.expand R (.box xl yl xh yh) ex ey = .ok (BBox.mk' (R.fl (xl - ex)) (R.fl (yl - ey.getD ex))
        (R.fl (xh + ex)) (R.fl (yh + ey.getD ex))) := by
      cases ey <;> simp only [Fl.expand, Fl.width, Fl.height, Option.getD] at hey ⊢ <;>
        rw [key n1 hx, key n2 hey]
    rw [he] at h
    cases h
    have a1 := R.fl_le_of_rep (x := xl - ex) (by linarith) r1
    have a2 := R.fl_le_of_rep (x := yl - ey.getD ex) (by linarith) r2
    have a3 := R.le_fl_of_rep (y := xh + ex) (by linarith) r3
    have a4 := R.le_fl_of_rep (y := yh + ey.getD ex) (by linarith) r4
    have e1 : BBox.mk' (R.fl (xl - ex)) (R.fl (yl - ey.getD ex)) (R.fl (xh + ex)) (R.fl (yh + ey.getD ex)) =
        .box (R.fl (xl - ex)) (R.fl (yl - ey.getD ex)) (R.fl (xh + ex)) (R.fl (yh + ey.getD ex)) := by
      unfold BBox.mk'
      rw [min_eq_left (by linarith), min_eq_left (by linarith), max_eq_right (by linarith), max_eq_right (by linarith)]
    rw [e1]
    refine ⟨?_, ⟨by linarith, by linarith⟩, xl, yl, xh, yh, _, _, _, _, rfl, rfl, R.err _, R.err _, R.err _, R.err _⟩
    rintro p ⟨⟨p1, p2⟩, p3, p4⟩
    exact ⟨⟨by linarith, by linarith⟩, by linarith, by linarith⟩

/-- C85: shrinking a box, by however much, gives a normalised box inside it. -/
theorem C85_expand_shrinks (b b' : BBox ℝ) (hb : b.Norm) (hr : R.RepBox b) (ex : ℝ) (ey : Option ℝ) (hx : ex ≤ 0)
    (hy : ∀ e ∈ ey, e ≤ 0) (h : Fl.expand R b ex ey = .ok b') :
    b'.Region ⊆ b.Region ∧ b'.Norm ∧ b' ≠ .none := by
  cases b with
  | none => cases h
  | box xl yl xh yh =>
    obtain ⟨⟨r1, r2⟩, r3, r4⟩ := hr
    obtain ⟨n1, n2⟩ := hb
    have key : ∀ {l h e : ℝ}, R.Rep l → R.Rep h → l ≤ h → e ≤ 0 →
        (l ≤ R.fl (l - max e (R.fl (-R.fl (h - l) / 2))) ∧ R.fl (l - max e (R.fl (-R.fl (h - l) / 2))) ≤ h) ∧
        (l ≤ R.fl (h + max e (R.fl (-R.fl (h - l) / 2))) ∧ R.fl (h + max e (R.fl (-R.fl (h - l) / 2))) ≤ h) := by
      intro l h e rl rh hl he
      have hw := R.fl_nonneg (x := h - l) (by linarith)
      have hw2 := R.fl_le (x := h - l) (by linarith)
      have hu := R.u_le
      have hm : R.fl (-R.fl (h - l) / 2) = -R.fl (h - l) / 2 := R.rep_half (R.rep_neg (R.rep_fl _))
      rw [hm]
      have m1 : max e (-R.fl (h - l) / 2) ≤ 0 := max_le he (by linarith)
      have m2 : -(h - l) ≤ max e (-R.fl (h - l) / 2) := by
        refine le_trans ?_ (le_max_right _ _)
        nlinarith
      exact ⟨⟨R.le_fl_of_rep (by linarith) rl, R.fl_le_of_rep (by linarith) rh⟩,
        R.le_fl_of_rep (by linarith) rl, R.fl_le_of_rep (by linarith) rh⟩
    have hey : ey.getD ex ≤ 0 := by
      cases ey with
      | none => exact hx
      | some e => exact hy e rfl
    have he : Fl.expand R (.box xl yl xh yh) ex ey =
        .ok (BBox.mk' (R.fl (xl - max ex (R.fl (-R.fl (xh - xl) / 2))))
          (R.fl (yl - max (ey.getD ex) (R.fl (-R.fl (yh - yl) / 2))))
          (R.fl (xh + max ex (R.fl (-R.fl (xh - xl) / 2))))
          (R.fl (yh + max (ey.getD ex) (R.fl (-R.fl (yh - yl) / 2))))) := by
      cases ey <;> rfl
    rw [he] at h
    cases h
    obtain ⟨⟨a1, a2⟩, a3, a4⟩ := key r1 r3 n1 hx
    obtain ⟨⟨b1, b2⟩, b3, b4⟩ := key r2 r4 n2 hey
    refine ⟨?_, ⟨min_le_max, min_le_max⟩, by simp [BBox.mk']⟩
    rintro p ⟨⟨p1, p2⟩, p3, p4⟩
    exact ⟨⟨(le_min a1 a3).trans p1, p2.trans (max_le a2 a4)⟩, (le_min b1 b3).trans p3, p4.trans (max_le b2 b4)⟩

/-- C85: widths, heights and areas are never negative, vanish exactly for boxes without extent, and do not get smaller when
the box gets larger. -/
theorem C85_size (xl yl xh yh : ℝ) (hb : (BBox.box xl yl xh yh).Norm) :
    (0 ≤ Fl.width R (.box xl yl xh yh) ∧ (Fl.width R (.box xl yl xh yh) = 0 ↔ xl = xh)) ∧
    (0 ≤ Fl.height R (.box xl yl xh yh) ∧ (Fl.height R (.box xl yl xh yh) = 0 ↔ yl = yh)) ∧
    (0 ≤ Fl.area R (.box xl yl xh yh) ∧ (Fl.area R (.box xl yl xh yh) = 0 ↔ xl = xh ∨ yl = yh)) ∧
    (∀ b : BBox ℝ, b.Norm → b.Region ⊆ (BBox.box xl yl xh yh).Region → Fl.width R b ≤ Fl.width R (.box xl yl xh yh) ∧
      Fl.height R b ≤ Fl.height R (.box xl yl xh yh) ∧ Fl.area R b ≤ Fl.area R (.box xl yl xh yh)) := by
  obtain ⟨n1, n2⟩ := hb
  have w0 := R.fl_nonneg (x := xh - xl) (by linarith)
  have h0 := R.fl_nonneg (x := yh - yl) (by linarith)
  have wz : R.fl (xh - xl) = 0 ↔ xl = xh := by rw [R.fl_eq_zero, sub_eq_zero, eq_comm]
  have hz : R.fl (yh - yl) = 0 ↔ yl = yh := by rw [R.fl_eq_zero, sub_eq_zero, eq_comm]
  refine ⟨⟨w0, wz⟩, ⟨h0, hz⟩, ⟨R.fl_nonneg (mul_nonneg w0 h0), ?_⟩, ?_⟩
  · simp only [Fl.area]
    rw [R.fl_eq_zero, mul_eq_zero, wz, hz]
  · intro b hb hsub
    cases b with
    | none => exact ⟨w0, h0, R.fl_nonneg (mul_nonneg w0 h0)⟩
    | box xl' yl' xh' yh' =>
      obtain ⟨m1, m2⟩ := hb
      have s1 : (⟨xl', yl'⟩ : Pt ℝ) ∈ (BBox.box xl yl xh yh).Region := hsub ⟨⟨le_rfl, m1⟩, le_rfl, m2⟩
      have s2 : (⟨xh', yh'⟩ : Pt ℝ) ∈ (BBox.box xl yl xh yh).Region := hsub ⟨⟨m1, le_rfl⟩, m2, le_rfl⟩
      obtain ⟨⟨q1, q2⟩, q3, q4⟩ := s1
      obtain ⟨⟨q5, q6⟩, q7, q8⟩ := s2
      simp only at q1 q2 q3 q4 q5 q6 q7 q8
      have w1 : R.fl (xh' - xl') ≤ R.fl (xh - xl) := R.mono _ _ (by linarith)
      have h1 : R.fl (yh' - yl') ≤ R.fl (yh - yl) := R.mono _ _ (by linarith)
      refine ⟨w1, h1, R.mono _ _ (mul_le_mul w1 h1 (R.fl_nonneg (by linarith)) w0)⟩

/-- The hypotheses are met: Python's doubles, the unit box, a shear. -/
example : ∃ (R : Rnd) (b b' : BBox ℝ), R.u = 2 ^ (-53 : ℤ) ∧ b.Norm ∧ R.RepBox b ∧
    b.transformed (Fl.apply R .fused (.of6 1 (1 / 2) 3 0 1 0)) = .ok b' ∧ (⟨1 / 3, 1 / 3⟩ : Pt ℝ) ∈ b.Region ∧
    ∃ b'', Fl.expand R b (-1) none = .ok b'' := by
  have := (Rnd.binary 53 (by norm_num)).rep_one
  have := (Rnd.binary 53 (by norm_num)).rep_zero
  refine ⟨.binary 53 (by norm_num), .box 0 0 1 1, _, rfl, ⟨by norm_num, by norm_num⟩, ⟨⟨?_, ?_⟩, ?_, ?_⟩, rfl,
    by simp [BBox.Region]; norm_num, _, rfl⟩ <;> assumption

end X7
