import Mathlib.Analysis.Complex.Norm
import Verif.Lemmas.Round
import Verif.Lemmas.VecReal
import Verif.Lemmas.Bezier
import Verif.Spec.Bezier

/-! C76: `close` of points, vectors and control points. -/

namespace X7
open RSpec

theorem hypot_norm (x y : ℝ) : hypot x y = ‖(⟨x, y⟩ : ℂ)‖ := by
  rw [Complex.norm_eq_sqrt_sq_add_sq, hypot, sq, sq]

theorem hypot_add_le (a b c d : ℝ) : hypot (a + c) (b + d) ≤ hypot a b + hypot c d := by
  rw [hypot_norm, hypot_norm, hypot_norm]
  exact norm_add_le (⟨a, b⟩ : ℂ) ⟨c, d⟩

theorem hypot_neg (x y : ℝ) : hypot (-x) (-y) = hypot x y := by simp [hypot]

theorem Pt.close_iff (p q : Pt ℝ) (d : ℝ) : p.close q d ↔ hypot (p.x - q.x) (p.y - q.y) < d := Iff.rfl
theorem Vec.close_iff (p q : Vec ℝ) (d : ℝ) : p.close q d ↔ hypot (p.x - q.x) (p.y - q.y) < d := Iff.rfl

theorem close_symm' (x y x' y' d : ℝ) : hypot (x - x') (y - y') < d ↔ hypot (x' - x) (y' - y) < d := by
  rw [← hypot_neg, neg_sub, neg_sub]

theorem close_trans' {x y x' y' x'' y'' d e : ℝ} (h : hypot (x - x') (y - y') < d) (h' : hypot (x' - x'') (y' - y'') < e) :
    hypot (x - x'') (y - y'') < d + e := by
  have := hypot_add_le (x - x') (y - y') (x' - x'') (y' - y'')
  rw [sub_add_sub_cancel, sub_add_sub_cancel] at this
  linarith

/-- C76: `close` of points is: the distance is less than `max_delta`. It is symmetric, a point is close to itself exactly for positive
`max_delta`, tolerances add up along a chain, and moving both points by the same vector changes nothing. -/
theorem C76_points (p q r : Pt ℝ) (d e : ℝ) (v : Vec ℝ) :
    (p.close q d ↔ √((p.x - q.x) ^ 2 + (p.y - q.y) ^ 2) < d) ∧ (p.close q d ↔ q.close p d) ∧ (p.close p d ↔ 0 < d) ∧
    (p.close q d → q.close r e → p.close r (d + e)) ∧ (p.close q d → d ≤ e → p.close q e) ∧
    ((p.addVector v).close (q.addVector v) d ↔ p.close q d) := by
  simp only [Pt.close_iff]
  refine ⟨by rw [hypot, sq, sq], close_symm' _ _ _ _ _, by simp [hypot], close_trans', lt_of_lt_of_le, ?_⟩
  simp only [Pt.addVector, add_sub_add_right_eq_sub]

/-- C76: the same for vectors. -/
theorem C76_vectors (p q r : Vec ℝ) (d e : ℝ) :
    (p.close q d ↔ √((p.x - q.x) ^ 2 + (p.y - q.y) ^ 2) < d) ∧ (p.close q d ↔ q.close p d) ∧ (p.close p d ↔ 0 < d) ∧
    (p.close q d → q.close r e → p.close r (d + e)) ∧ (p.close q d → d ≤ e → p.close q e) := by
  simp only [Vec.close_iff]
  exact ⟨by rw [hypot, sq, sq], close_symm' _ _ _ _ _, by simp [hypot], close_trans', lt_of_lt_of_le⟩

/-- C76: the same for control points; those of different kinds are never close. -/
theorem C76_control_points (a b c : CP ℝ) (d e : ℝ) :
    (a.close b d ↔ b.close a d) ∧ (a.close a d ↔ 0 < d) ∧ (a.close b d → b.close c e → a.close c (d + e)) ∧
    (a.close b d → d ≤ e → a.close b e) ∧ (a.kind ≠ b.kind → ¬ a.close b d) ∧ (a.close b d → a.reversed.close b.reversed d) := by
  simp only [CP.close, Pt.close_iff, Vec.close_iff, CP.reversed]
  refine ⟨?_, by simp [hypot], ?_, ?_, ?_, ?_⟩
  · rw [close_symm' a.c.x, close_symm' a.dl.x, close_symm' a.dr.x, eq_comm]
  · rintro ⟨h1, h2, h3, h4⟩ ⟨k1, k2, k3, k4⟩
    exact ⟨h1.trans k1, close_trans' h2 k2, close_trans' h3 k3, close_trans' h4 k4⟩
  · rintro ⟨h1, h2, h3, h4⟩ hd
    exact ⟨h1, h2.trans_le hd, h3.trans_le hd, h4.trans_le hd⟩
  · exact fun h h' => h h'.1
  · rintro ⟨h1, h2, h3, h4⟩
    exact ⟨h1, h2, h4, h3⟩

/-- C76: `close` with one tolerance is not transitive. -/
theorem C76_transitive_counterexample : ∃ p q r : Pt ℝ, p.close q 1 ∧ q.close r 1 ∧ ¬ p.close r 1 := by
  refine ⟨⟨0, 0⟩, ⟨1 / 2, 0⟩, ⟨1, 0⟩, ?_, ?_, ?_⟩ <;> simp only [Pt.close_iff]
  · rw [hypot_unique (r := 1 / 2) (by norm_num) (by norm_num)]; norm_num
  · rw [hypot_unique (r := 1 / 2) (by norm_num) (by norm_num)]; norm_num
  · rw [hypot_unique (r := 1) (by norm_num) (by norm_num)]; norm_num

/-- C76: a rounded point is close to the point within one unit of the last place, and a rounded control point to the control point. -/
theorem C76_round (n : ℤ) (p : Pt ℝ) (cp : CP ℝ) : (p.round n).close p (10 ^ (-n)) ∧ (cp.round n).close cp (10 ^ (-n)) := by
  have key : ∀ x y : ℝ, hypot (roundTo n x - x) (roundTo n y - y) < 10 ^ (-n) := by
    intro x y
    have hx := roundTo_within n x
    have hy := roundTo_within n y
    have hp := pow10_pos (K := ℝ) (-n)
    rw [hypot, Real.sqrt_lt' hp]
    generalize (10 : ℝ) ^ (-n) = u at *
    rw [abs_le] at hx hy
    nlinarith
  exact ⟨key _ _, rfl, key _ _, key _ _, key _ _⟩

theorem hypot_mul' (x y k : ℝ) (h : 0 ≤ k) : hypot (k * x) (k * y) = k * hypot x y := by
  rw [mul_comm k x, mul_comm k y, hypot_mul, abs_of_nonneg h, mul_comm]

theorem bern_close {a b c d a' b' c' d' : Pt ℝ} {e t : ℝ} (h0 : 0 ≤ t) (h1 : t ≤ 1) (ha : a.close a' e) (hb : b.close b' e)
    (hc : c.close c' e) (hd : d.close d' e) : (bern a b c d t).close (bern a' b' c' d' t) e := by
  rw [Pt.close_iff] at *
  have w0 : 0 ≤ (1 - t) ^ 3 := pow_nonneg (by linarith) 3
  have w1 : 0 ≤ 3 * (1 - t) ^ 2 * t := by positivity
  have w2 : 0 ≤ 3 * (1 - t) * t ^ 2 := mul_nonneg (by linarith) (by positivity)
  have w3 : 0 ≤ t ^ 3 := by positivity
  have hs : (1 - t) ^ 3 + 3 * (1 - t) ^ 2 * t + 3 * (1 - t) * t ^ 2 + t ^ 3 = 1 := by ring
  simp only [bern]
  generalize (1 - t) ^ 3 = p0 at *
  generalize 3 * (1 - t) ^ 2 * t = p1 at *
  generalize 3 * (1 - t) * t ^ 2 = p2 at *
  generalize t ^ 3 = p3 at *
  have e1 := hypot_add_le (p0 * (a.x - a'.x)) (p0 * (a.y - a'.y)) (p1 * (b.x - b'.x)) (p1 * (b.y - b'.y))
  have e2 := hypot_add_le (p0 * (a.x - a'.x) + p1 * (b.x - b'.x)) (p0 * (a.y - a'.y) + p1 * (b.y - b'.y)) (p2 * (c.x - c'.x))
    (p2 * (c.y - c'.y))
  have e3 := hypot_add_le (p0 * (a.x - a'.x) + p1 * (b.x - b'.x) + p2 * (c.x - c'.x))
    (p0 * (a.y - a'.y) + p1 * (b.y - b'.y) + p2 * (c.y - c'.y)) (p3 * (d.x - d'.x)) (p3 * (d.y - d'.y))
  rw [hypot_mul' _ _ _ w0, hypot_mul' _ _ _ w1] at e1
  rw [hypot_mul' _ _ _ w2] at e2
  rw [hypot_mul' _ _ _ w3] at e3
  rw [show p0 * a.x + p1 * b.x + p2 * c.x + p3 * d.x - (p0 * a'.x + p1 * b'.x + p2 * c'.x + p3 * d'.x) =
      p0 * (a.x - a'.x) + p1 * (b.x - b'.x) + p2 * (c.x - c'.x) + p3 * (d.x - d'.x) by ring,
    show p0 * a.y + p1 * b.y + p2 * c.y + p3 * d.y - (p0 * a'.y + p1 * b'.y + p2 * c'.y + p3 * d'.y) =
      p0 * (a.y - a'.y) + p1 * (b.y - b'.y) + p2 * (c.y - c'.y) + p3 * (d.y - d'.y) by ring]
  refine (e3.trans (add_le_add (e2.trans (add_le_add e1 le_rfl)) le_rfl)).trans_lt ?_
  have k : ∀ {p x : ℝ}, 0 ≤ p → x < e → p * x ≤ p * e := fun hp hx => mul_le_mul_of_nonneg_left hx.le hp
  have hpos : 0 < p0 ∨ 0 < p1 ∨ 0 < p2 ∨ 0 < p3 := by
    by_contra hn
    push Not at hn
    linarith
  have q : ∀ {p x : ℝ}, 0 < p → x < e → p * x < p * e := fun hp hx => mul_lt_mul_of_pos_left hx hp
  have he : e = p0 * e + p1 * e + p2 * e + p3 * e := by linear_combination (-e) * hs
  rcases hpos with h | h | h | h
  · linarith [q h ha, k w1 hb, k w2 hc, k w3 hd]
  · linarith [k w0 ha, q h hb, k w2 hc, k w3 hd]
  · linarith [k w0 ha, k w1 hb, q h hc, k w3 hd]
  · linarith [k w0 ha, k w1 hb, k w2 hc, q h hd]

/-- C76: if the control points of two curves are pairwise close within `d`, the curves have the same number of segments and at equal
parameters their points are close within `2 * d`. -/
theorem C76_curve (closed : Bool) (cps cps' : List (CP ℝ)) (d : ℝ) (h : List.Forall₂ (fun a b => a.close b d) cps cps') :
    List.Forall₂ (fun s s' : Poly4 ℝ => ∀ t, 0 ≤ t → t ≤ 1 → (s.at' t).close (s'.at' t) (2 * d)) (segs closed cps) (segs closed cps') := by
  have hseg : ∀ a b a' b' : CP ℝ, a.close a' d → b.close b' d → ∀ t, 0 ≤ t → t ≤ 1 →
      ((seg a b).at' t).close ((seg a' b').at' t) (2 * d) := by
    rintro a b a' b' ⟨-, h1, h2, h3⟩ ⟨-, k1, k2, k3⟩ t h0 h1'
    have hd : ∀ {p q : Pt ℝ}, p.close q d → p.close q (2 * d) := by
      intro p q hpq
      rw [Pt.close_iff] at *
      have := hypot_nonneg (p.x - q.x) (p.y - q.y)
      linarith
    have hh : ∀ {p q : Pt ℝ} {v w : Vec ℝ}, p.close q d → v.close w d →
        Pt.close ⟨p.x + v.x, p.y + v.y⟩ ⟨q.x + w.x, q.y + w.y⟩ (2 * d) := by
      intro p q v w hpq hvw
      rw [Pt.close_iff] at *
      rw [Vec.close_iff] at hvw
      have := hypot_add_le (p.x - q.x) (p.y - q.y) (v.x - w.x) (v.y - w.y)
      rw [show p.x - q.x + (v.x - w.x) = p.x + v.x - (q.x + w.x) by ring,
        show p.y - q.y + (v.y - w.y) = p.y + v.y - (q.y + w.y) by ring] at this
      simp only
      linarith
    exact bern_close h0 h1' (hd h1) (hh h1 h3) (hh k1 k2) (hd k1)
  have hz : ∀ {l1 l1' l2 l2' : List (CP ℝ)}, List.Forall₂ (fun a b => a.close b d) l1 l1' →
      List.Forall₂ (fun a b => a.close b d) l2 l2' →
      List.Forall₂ (fun s s' : Poly4 ℝ => ∀ t, 0 ≤ t → t ≤ 1 → (s.at' t).close (s'.at' t) (2 * d)) (List.zipWith seg l1 l2)
        (List.zipWith seg l1' l2') := by
    intro l1 l1' l2 l2' h1
    induction h1 generalizing l2 l2' with
    | nil => intro _; simp
    | cons ha _ ih =>
      intro h2
      cases h2 with
      | nil => simp
      | cons hb hr => exact .cons (hseg _ _ _ _ ha hb) (ih hr)
  cases closed
  · refine hz h ?_
    cases h with
    | nil => exact .nil
    | cons _ hr => exact hr
  · refine hz h ?_
    cases h with
    | nil => exact .nil
    | cons ha hr =>
      simp only [List.rotate_cons_succ, List.rotate_zero]
      exact List.rel_append hr (.cons ha .nil)

/-- Two control points close within a tenth, and so the curves through them within a fifth. -/
example : List.Forall₂ (fun a b : CP ℝ => a.close b (1 / 10)) [⟨⟨0, 0⟩, ⟨0, 0⟩, ⟨1, 1⟩, "smooth"⟩, ⟨⟨4, 0⟩, ⟨-1, 1⟩, ⟨0, 0⟩, "sharp"⟩]
    [⟨⟨0, 1 / 20⟩, ⟨0, 0⟩, ⟨1, 1⟩, "smooth"⟩, ⟨⟨4, 0⟩, ⟨-1, 21 / 20⟩, ⟨0, 0⟩, "sharp"⟩] := by
  have h : hypot (0 : ℝ) (0 - 1 / 20) < 1 / 10 := by rw [hypot_unique (r := 1 / 20) (by norm_num) (by norm_num)]; norm_num
  have h' : hypot (0 : ℝ) (1 - 21 / 20) < 1 / 10 := by rw [hypot_unique (r := 1 / 20) (by norm_num) (by norm_num)]; norm_num
  have h0 : hypot (0 : ℝ) 0 < 1 / 10 := by simp [hypot]
  refine .cons ⟨rfl, ?_, ?_, ?_⟩ (.cons ⟨rfl, ?_, ?_, ?_⟩ .nil) <;> simp only [Pt.close_iff, Vec.close_iff, sub_self] <;> assumption

end X7
