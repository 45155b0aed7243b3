import Verif.Model.RndShapes
import Verif.Spec.Rnd
import Verif.Spec.RndVec
import Verif.Lemmas.Fl
import Verif.Lemmas.Rnd

/-!
C99: `scale_bbox` and `transform_width` under rounding. `R` is any rounding with the properties of `Rnd`.
-/

namespace X7
open Rnd
variable (R : Rnd)

theorem Fl.dot3_b0 (mode : DotMode) (a x y c : ℝ) (hc : R.Rep c) : Fl.dot3 R mode a x 0 y c 1 = R.fl (R.fl (a * x) + c) := by
  cases mode <;> simp [Fl.dot3, R.fl_zero, R.idem, show R.fl c = c from hc]

theorem Fl.dot3_a0 (mode : DotMode) (x b y c : ℝ) (hc : R.Rep c) : Fl.dot3 R mode 0 x b y c 1 = R.fl (R.fl (b * y) + c) := by
  cases mode <;> simp [Fl.dot3, R.fl_zero, R.idem, show R.fl c = c from hc]

/-- The matrix of `scale_bbox`, entry by entry. -/
theorem Fl.scaleBBox_mat (mode : DotMode) (xl yl sx sy txl tyl : ℝ) (h1 : R.Rep xl) (h2 : R.Rep yl) (h3 : R.Rep sx) (h4 : R.Rep sy)
    (h5 : R.Rep txl) (h6 : R.Rep tyl) :
    Fl.history R mode [(true, Mat3.translateMat (-xl) (-yl)), (true, Mat3.scaleMat sx sy), (true, Mat3.translateMat txl tyl)] =
      ⟨sx, 0, R.fl (R.fl (sx * -xl) + txl), 0, sy, R.fl (R.fl (sy * -yl) + tyl), 0, 0, 1⟩ := by
  have n1 : R.fl xl = xl := h1
  have n2 : R.fl yl = yl := h2
  have n3 : R.fl sx = sx := h3
  have n4 : R.fl sy = sy := h4
  have n5 : R.fl txl = txl := h5
  have n6 : R.fl tyl = tyl := h6
  cases mode <;>
    simp [Fl.history, Fl.mul, Fl.dot3, Mat3.translateMat, Mat3.scaleMat, Mat3.one, R.fl_zero, R.fl_one, R.neg, R.idem, n1, n2, n3, n4, n5, n6]

/-- A quotient of two computed widths is right up to four roundings. -/
theorem Fl.ratio_near (tw sw : ℝ) (ht : 0 ≤ tw) (hs : 0 < sw) : R.Near 4 (R.fl (R.fl tw / R.fl sw)) (tw / sw) (tw / sw) := by
  have u0 := R.u_nonneg
  have u1 := R.u_le
  have q0 : 0 ≤ tw / sw := by positivity
  have e1 := abs_le.1 (R.err tw)
  have e2 := abs_le.1 (R.err sw)
  rw [abs_of_nonneg ht] at e1
  rw [abs_of_pos hs] at e2
  have s1 : (1 - R.u) * sw ≤ R.fl sw := by linarith
  have s2 : R.fl sw ≤ (1 + R.u) * sw := by linarith
  have t1 : (1 - R.u) * tw ≤ R.fl tw := by linarith
  have t2 : R.fl tw ≤ (1 + R.u) * tw := by linarith
  have p1 : 0 < (1 - R.u) * sw := mul_pos (by linarith) hs
  have p2 : 0 < R.fl sw := lt_of_lt_of_le p1 s1
  have p3 : 0 ≤ R.fl tw := R.fl_nonneg ht
  have d0 : 0 ≤ R.fl tw / R.fl sw := by positivity
  have e3 := abs_le.1 (R.err (R.fl tw / R.fl sw))
  rw [abs_of_nonneg d0] at e3
  have hi : R.fl tw / R.fl sw ≤ (1 + R.u) ^ 3 * (tw / sw) := by
    rw [div_le_iff₀ p2]
    have k : (1 + R.u) * tw ≤ (1 + R.u) ^ 3 * (tw / sw) * ((1 - R.u) * sw) := by
      have : (1 + R.u) ^ 3 * (tw / sw) * ((1 - R.u) * sw) = (1 + R.u) * tw * ((1 + R.u) ^ 2 * (1 - R.u)) := by field_simp
      rw [this]
      have h1 : 1 ≤ (1 + R.u) ^ 2 * (1 - R.u) := by nlinarith [mul_nonneg u0 u0]
      have h2 : 0 ≤ (1 + R.u) * tw := by positivity
      nlinarith
    calc R.fl tw ≤ (1 + R.u) * tw := t2
      _ ≤ _ := k
      _ ≤ _ := mul_le_mul_of_nonneg_left s1 (by positivity)
  have lo : (1 - 3 * R.u) * (tw / sw) ≤ R.fl tw / R.fl sw := by
    rw [le_div_iff₀ p2]
    rcases le_total 0 (1 - 3 * R.u) with h | h
    · calc (1 - 3 * R.u) * (tw / sw) * R.fl sw ≤ (1 - 3 * R.u) * (tw / sw) * ((1 + R.u) * sw) := by gcongr
        _ = (1 - 3 * R.u) * (1 + R.u) * tw := by field_simp
        _ ≤ (1 - R.u) * tw := mul_le_mul_of_nonneg_right (by nlinarith) ht
        _ ≤ _ := t1
    · have : (1 - 3 * R.u) * (tw / sw) * R.fl sw ≤ 0 :=
        mul_nonpos_of_nonpos_of_nonneg (mul_nonpos_of_nonpos_of_nonneg h q0) p2.le
      linarith
  refine ⟨by rw [abs_of_nonneg q0], ?_⟩
  unfold gam
  rw [abs_le]
  have b4 : 1 + 4 * R.u ≤ (1 + R.u) ^ 4 := by
    have : (1 + R.u) ^ 4 = 1 + 4 * R.u + 6 * R.u ^ 2 + 4 * R.u ^ 3 + R.u ^ 4 := by ring
    rw [this]; nlinarith [pow_nonneg u0 2, pow_nonneg u0 3, pow_nonneg u0 4]
  constructor
  · have k1 : (1 - R.u) * ((1 - 3 * R.u) * (tw / sw)) ≤ R.fl (R.fl tw / R.fl sw) := by
      have := mul_le_mul_of_nonneg_left lo (by linarith : 0 ≤ 1 - R.u)
      linarith
    have k2 : (1 - 4 * R.u) * (tw / sw) ≤ (1 - R.u) * ((1 - 3 * R.u) * (tw / sw)) := by
      nlinarith [mul_nonneg (mul_nonneg u0 u0) q0]
    nlinarith [mul_le_mul_of_nonneg_right b4 q0]
  · have k1 : R.fl (R.fl tw / R.fl sw) ≤ (1 + R.u) * ((1 + R.u) ^ 3 * (tw / sw)) := by
      have := mul_le_mul_of_nonneg_left hi (by linarith : 0 ≤ 1 + R.u)
      linarith
    have : (1 + R.u) * ((1 + R.u) ^ 3 * (tw / sw)) = (1 + R.u) ^ 4 * (tw / sw) := by ring
    linarith

/-- One coordinate of a point mapped by the matrix of `scale_bbox`. -/
theorem Fl.fit_axis (s tw sw x xl txl : ℝ) (ht : 0 ≤ tw) (hs : 0 < sw) (h : s = R.fl (R.fl tw / R.fl sw)) :
    |R.fl (R.fl (s * x) + R.fl (R.fl (s * -xl) + txl)) - (txl + (x - xl) * (tw / sw))| ≤ R.gam 7 * (tw / sw * (|x| + |xl|) + |txl|) := by
  have n := Fl.ratio_near R tw sw ht hs
  rw [← h] at n
  have n1 := n.mul (Near.of_abs (R := R) x)
  have n2 := n.mul (Near.of_abs (R := R) (-xl))
  have n3 := n1.add (n2.add (Near.of_abs (R := R) txl))
  have n4 := n3.mono (n := 7) (by omega) le_rfl
  have := n4.2
  rw [abs_neg] at this
  convert this using 2
  · ring_nf
  · ring

/-- C99: after `scale_bbox` a point is where the exact map of the one box to the other would put it, up to seven roundings of the
coordinates involved. So the corners of the start go to the corners of the target up to these. Boxes without width or height fail. -/
theorem C99_scale_bbox (mode : DotMode) (xl yl xh yh txl tyl txh tyh : ℝ) (hb : R.RepBox (.box xl yl xh yh))
    (ht : R.RepBox (.box txl tyl txh tyh)) (tx : txl ≤ txh) (ty : tyl ≤ tyh) :
    ((xl < xh ∧ yl < yh) → ∃ m, Fl.scaleBBox R mode (.box xl yl xh yh) (.box txl tyl txh tyh) = .ok m ∧ ∀ p : Pt ℝ,
      Within (R.gam 7 * ((txh - txl) / (xh - xl) * (|p.x| + |xl|) + |txl|)) (R.gam 7 * ((tyh - tyl) / (yh - yl) * (|p.y| + |yl|) + |tyl|))
        (Fl.apply R mode m p)
        ⟨txl + (p.x - xl) * ((txh - txl) / (xh - xl)), tyl + (p.y - yl) * ((tyh - tyl) / (yh - yl))⟩) ∧
    (xl = xh ∨ yl = yh → Fl.scaleBBox R mode (.box xl yl xh yh) (.box txl tyl txh tyh) = .error .zeroDivision) := by
  have w0 : R.fl (xh - xl) = 0 ↔ xl = xh := by rw [R.fl_eq_zero, sub_eq_zero, eq_comm]
  have h0 : R.fl (yh - yl) = 0 ↔ yl = yh := by rw [R.fl_eq_zero, sub_eq_zero, eq_comm]
  constructor
  · rintro ⟨hx, hy⟩
    have e : Fl.scaleBBox R mode (.box xl yl xh yh) (.box txl tyl txh tyh) =
        .ok (Fl.history R mode [(true, Mat3.translateMat (-xl) (-yl)),
          (true, Mat3.scaleMat (R.fl (R.fl (txh - txl) / R.fl (xh - xl))) (R.fl (R.fl (tyh - tyl) / R.fl (yh - yl)))),
          (true, Mat3.translateMat txl tyl)]) := by
      exact if_neg (show ¬ (R.fl (xh - xl) = 0 ∨ R.fl (yh - yl) = 0) by
        rw [w0, h0]
        rintro (h | h) <;> linarith)
    rw [Fl.scaleBBox_mat R mode _ _ _ _ _ _ hb.1.1 hb.1.2 (R.rep_fl _) (R.rep_fl _) ht.1.1 ht.1.2] at e
    refine ⟨_, e, fun p => ⟨?_, ?_⟩⟩
    · show |Fl.dot3 R mode _ p.x 0 p.y _ 1 - _| ≤ _
      rw [Fl.dot3_b0 R mode _ _ _ _ (R.rep_fl _)]
      exact Fl.fit_axis R _ _ _ _ _ _ (by linarith) (by linarith) rfl
    · show |Fl.dot3 R mode 0 p.x _ p.y _ 1 - _| ≤ _
      rw [Fl.dot3_a0 R mode _ _ _ _ (R.rep_fl _)]
      exact Fl.fit_axis R _ _ _ _ _ _ (by linarith) (by linarith) rfl
  · intro h
    exact if_pos (show R.fl (xh - xl) = 0 ∨ R.fl (yh - yl) = 0 by rw [w0, h0]; exact h)

/-- C99: the width of a pen under a transformation is computed right up to two roundings more than `np.hypot` makes. -/
theorem C99_width (k : ℕ) (hyp : ℝ → ℝ → ℝ) (hh : HypotLaw (R.gam k) hyp) (s : TState) (w : ℝ) :
    |Fl.transformWidth R hyp s.mat w - s.transformWidth w| ≤ R.gam (k + 2) * (|w| * (hypot s.mat.a s.mat.d + hypot s.mat.b s.mat.e) / 2) := by
  have near : ∀ x y, R.Near k |hyp x y| (hypot x y) (hypot x y) := by
    intro x y
    have h0 : 0 ≤ hypot x y := Real.sqrt_nonneg _
    refine ⟨by rw [abs_of_nonneg h0], ?_⟩
    have h1 := hh x y
    have h2 := abs_abs_sub_abs_le (hyp x y) (hypot x y)
    rw [abs_of_nonneg h0] at h2
    exact h2.trans h1
  have n := ((Near.of_abs (R := R) w).mul ((near s.mat.a s.mat.d).add (near s.mat.b s.mat.e))).half
  have e : s.transformWidth w = w * (hypot s.mat.a s.mat.d + hypot s.mat.b s.mat.e) / 2 := by
    have : s.transformWidth w = w * (|hypot s.mat.a s.mat.d| + |hypot s.mat.b s.mat.e|) / 2 := rfl
    have n1 : 0 ≤ hypot s.mat.a s.mat.d := Real.sqrt_nonneg _
    have n2 : 0 ≤ hypot s.mat.b s.mat.e := Real.sqrt_nonneg _
    rw [this, abs_of_nonneg n1, abs_of_nonneg n2]
  rw [e]
  unfold Fl.transformWidth
  rw [R.fl_half, R.idem]
  exact (n.mono (n := k + 2) (by omega) le_rfl).2

/-- The hypotheses can be met: Python's floats, the box from (0, 0) to (3, 7) and a target. -/
example : ∃ R : Rnd, R.u = 2 ^ (-53 : ℤ) ∧ R.RepBox (.box 0 0 3 7) ∧ R.RepBox (.box 1 1 11 11) := by
  have r : ∀ n : ℤ, |n| ≤ 2 ^ 53 → (Rnd.binary 53 (by norm_num)).Rep n := fun n h => by
    have := flBin_rep 53 (by norm_num) n 0 h
    simp only [zpow_zero, mul_one] at this
    exact this
  refine ⟨Rnd.binary 53 (by norm_num), rfl, ⟨⟨?_, ?_⟩, ?_, ?_⟩, ⟨⟨?_, ?_⟩, ?_, ?_⟩⟩
  · exact_mod_cast r 0 (by norm_num)
  · exact_mod_cast r 0 (by norm_num)
  · exact_mod_cast r 3 (by norm_num)
  · exact_mod_cast r 7 (by norm_num)
  · exact_mod_cast r 1 (by norm_num)
  · exact_mod_cast r 1 (by norm_num)
  · exact_mod_cast r 11 (by norm_num)
  · exact_mod_cast r 11 (by norm_num)

end X7
