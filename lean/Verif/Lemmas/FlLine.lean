import Verif.Model.RndLine
import Verif.Lemmas.Fl
import Verif.Lemmas.FlVec
import Verif.Lemmas.FlAnim
import Verif.Spec.Line
import Verif.Props.Line

/-! Rounded lines: lemmas for C89. -/

noncomputable section

namespace X7

namespace Fl
variable {R : Rnd}

/-- The quotient that `lineT` computes. -/
def lineQ (R : Rnd) (l o : Line ℝ) : ℝ :=
  R.fl (dot R (normal l.direction) (sub R l.origin o.origin) / dot R (normal l.direction) o.direction)

theorem normal_dot (v w : Vec ℝ) : dot R (normal v) w = -cross R v w := by
  simp only [dot, normal, cross]
  rw [← R.neg, neg_sub, neg_mul, R.neg, ← sub_eq_add_neg]

theorem cross_swap (v w : Vec ℝ) : cross R v w = -cross R w v := by
  simp only [cross]
  rw [← R.neg, neg_sub, mul_comm w.y, mul_comm w.x]

theorem lineT_eq {l o : Line ℝ} (h : cross R l.direction o.direction ≠ 0) : lineT R l o = .ok (lineQ R l o) := by
  unfold lineT div
  rw [if_neg (by rw [normal_dot]; exact neg_ne_zero.2 h)]
  rfl

theorem segmentBBox_overlaps (l o : Line ℝ) : ∃ r, (segmentBBox R l).overlaps (segmentBBox R o) = .ok r := by
  simp only [segmentBBox, BBox.ofPts, BBox.mk', BBox.overlaps]
  split_ifs <;> exact ⟨_, rfl⟩

theorem overlaps_swap (l o : Line ℝ) :
    (segmentBBox R o).overlaps (segmentBBox R l) = (segmentBBox R l).overlaps (segmentBBox R o) := by
  simp only [segmentBBox, BBox.ofPts, BBox.mk', BBox.overlaps]
  split_ifs <;> first | rfl | (exfalso; tauto)

/-- All cases of `segment_intersection`. -/
theorem segmentIntersection_eq (hyp : ℝ → ℝ → ℝ) (l o : Line ℝ) :
    segmentIntersection R hyp l o =
      if (segmentBBox R l).overlaps (segmentBBox R o) = .ok false then .ok none
      else if cross R l.direction o.direction = 0 then .error .parallelLine
      else if (lineQ R l o < 0 ∨ lineQ R l o > 1) ∨ lineQ R o l < 0 ∨ lineQ R o l > 1 then .ok none
      else if hyp (sub R (lineAt R l (lineQ R o l)) (lineAt R o (lineQ R l o))).x
          (sub R (lineAt R l (lineQ R o l)) (lineAt R o (lineQ R l o))).y < R.fl (1 / 10 ^ 7) then
        .ok (some (lineAt R o (lineQ R l o), lineQ R o l, lineQ R l o))
      else .error .assertion := by
  obtain ⟨r, hr⟩ := segmentBBox_overlaps (R := R) l o
  unfold segmentIntersection
  rw [hr]
  cases r with
  | false => simp
  | true =>
    simp only [Except.ok.injEq, Bool.true_eq_false, if_false, lineParallel, decide_eq_true_eq]
    by_cases hc : cross R l.direction o.direction = 0
    · rw [if_pos hc, if_pos hc]
    · have hc' : cross R o.direction l.direction ≠ 0 := by rw [cross_swap]; exact neg_ne_zero.2 hc
      rw [if_neg hc, if_neg hc, lineT_eq hc, lineT_eq hc']
      simp only
      by_cases h1 : lineQ R l o < 0 ∨ lineQ R l o > 1
      · rw [if_pos h1, if_pos (Or.inl h1)]
      · by_cases h2 : lineQ R o l < 0 ∨ lineQ R o l > 1
        · rw [if_neg h1, if_pos h2, if_pos (Or.inr h2)]
        · rw [if_neg h1, if_neg h2, if_neg (not_or.2 ⟨h1, h2⟩), ite_not]

/-- Rounded sums of a start and a part of a step stay between the start and the end. -/
theorem step_between {o d t : ℝ} (ho : R.Rep o) (hd : R.Rep d) (h0 : 0 ≤ t) (h1 : t ≤ 1) :
    min o (R.fl (o + d)) ≤ R.fl (o + R.fl (d * t)) ∧ R.fl (o + R.fl (d * t)) ≤ max o (R.fl (o + d)) := by
  rcases le_total 0 d with h | h
  · have a : 0 ≤ R.fl (d * t) := R.fl_nonneg (mul_nonneg h h0)
    have b : R.fl (d * t) ≤ d := R.fl_le_of_rep (by nlinarith) hd
    exact ⟨(min_le_left _ _).trans (R.le_fl_of_rep (by linarith) ho), (R.mono _ _ (by linarith)).trans (le_max_right _ _)⟩
  · have a : R.fl (d * t) ≤ 0 := R.fl_nonpos (mul_nonpos_of_nonpos_of_nonneg h h0)
    have b : d ≤ R.fl (d * t) := R.le_fl_of_rep (by nlinarith) hd
    exact ⟨(min_le_right _ _).trans (R.mono _ _ (by linarith)), (R.fl_le_of_rep (by linarith) ho).trans (le_max_left _ _)⟩

end Fl
end X7
