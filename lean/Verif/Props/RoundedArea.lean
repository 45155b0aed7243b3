import Verif.Lemmas.RoundedArea
import Verif.Props.RoundedFill

/-!
C137: the area of what a rounded rectangle fills.
-/

open MeasureTheory Set X7.Approx X7.Utils

noncomputable section

namespace X7.Elem

/-- The rectangle without its rim in terms of its middle. -/
theorem core_iff (p1 p2 : Pt ℝ) (r : ℝ) (o : Pt ℝ) : Core p1 p2 r o ↔
    |o.x - (p1.x + p2.x) / 2| ≤ |p1.x - p2.x| / 2 - r ∧ |o.y - (p1.y + p2.y) / 2| ≤ |p1.y - p2.y| / 2 - r := by
  rw [Core, abs_le, abs_le]
  have hx := max_sub_min_eq_abs p1.x p2.x
  have hx' := min_add_max p1.x p2.x
  have hy := max_sub_min_eq_abs p1.y p2.y
  have hy' := min_add_max p1.y p2.y
  have sx := abs_sub_comm p1.x p2.x
  have sy := abs_sub_comm p1.y p2.y
  constructor
  · rintro ⟨a, b, c, d⟩
    refine ⟨⟨?_, ?_⟩, ?_, ?_⟩ <;> linarith
  · rintro ⟨⟨a, b⟩, c, d⟩
    refine ⟨?_, ?_, ?_, ?_⟩ <;> linarith

theorem shrink_le {d x u : ℝ} (hd : 0 ≤ d) (hu : |u| ≤ d) : shrink d x ^ 2 ≤ (x - u) ^ 2 := by
  rw [abs_le] at hu
  rcases le_total x (-d) with h | h
  · rw [shrink_low hd h]; nlinarith
  rcases le_total x d with h' | h'
  · rw [shrink_mid h h']; nlinarith [sq_nonneg (x - u)]
  · rw [shrink_high hd h']; nlinarith

theorem clamp_abs {d : ℝ} (hd : 0 ≤ d) (x : ℝ) : |max (-d) (min x d)| ≤ d := by
  rw [abs_le]
  exact ⟨le_max_left _ _, max_le (by linarith) (min_le_right _ _)⟩

/-- The part of the plane less than `k` away from the rectangle without its rim. -/
theorem near_core (p1 p2 : Pt ℝ) {r k : ℝ} (hk : 0 < k) (hrx : r ≤ |p1.x - p2.x| / 2) (hry : r ≤ |p1.y - p2.y| / 2) (p : Pt ℝ) :
    (∃ o, Core p1 p2 r o ∧ distPt o p < k) ↔
      shrink (|p1.x - p2.x| / 2 - r) (p.x - (p1.x + p2.x) / 2) ^ 2 + shrink (|p1.y - p2.y| / 2 - r) (p.y - (p1.y + p2.y) / 2) ^ 2 < k ^ 2 := by
  constructor
  · rintro ⟨o, ho, hd⟩
    obtain ⟨h1, h2⟩ := (core_iff p1 p2 r o).1 ho
    rw [distPt, Real.sqrt_lt' hk] at hd
    have e1 := shrink_le (x := p.x - (p1.x + p2.x) / 2) (sub_nonneg.2 hrx) h1
    have e2 := shrink_le (x := p.y - (p1.y + p2.y) / 2) (sub_nonneg.2 hry) h2
    refine lt_of_le_of_lt (add_le_add e1 e2) (lt_of_eq_of_lt ?_ hd)
    ring
  · intro h
    refine ⟨⟨(p1.x + p2.x) / 2 + max (-(|p1.x - p2.x| / 2 - r)) (min (p.x - (p1.x + p2.x) / 2) (|p1.x - p2.x| / 2 - r)),
      (p1.y + p2.y) / 2 + max (-(|p1.y - p2.y| / 2 - r)) (min (p.y - (p1.y + p2.y) / 2) (|p1.y - p2.y| / 2 - r))⟩, (core_iff p1 p2 r _).2 ⟨?_, ?_⟩, ?_⟩
    · rw [add_sub_cancel_left]; exact clamp_abs (sub_nonneg.2 hrx) _
    · rw [add_sub_cancel_left]; exact clamp_abs (sub_nonneg.2 hry) _
    · rw [distPt, Real.sqrt_lt' hk]
      refine lt_of_eq_of_lt ?_ h
      simp only [shrink]
      ring

theorem near_core_volume (p1 p2 : Pt ℝ) {r k : ℝ} (hk : 0 < k) (hrx : r ≤ |p1.x - p2.x| / 2) (hry : r ≤ |p1.y - p2.y| / 2) :
    volume {q : ℝ × ℝ | ∃ o, Core p1 p2 r o ∧ distPt o ⟨q.1, q.2⟩ < k} =
      ENNReal.ofReal (4 * (|p1.x - p2.x| / 2 - r) * (|p1.y - p2.y| / 2 - r) + 4 * k * (|p1.x - p2.x| / 2 - r + (|p1.y - p2.y| / 2 - r)) + Real.pi * k ^ 2) := by
  rw [← rounded_volume (sub_nonneg.2 hrx) (sub_nonneg.2 hry) hk,
    ← measure_preimage_add_right volume (-((p1.x + p2.x) / 2), -((p1.y + p2.y) / 2)) {q : ℝ × ℝ | shrink (|p1.x - p2.x| / 2 - r) q.1 ^ 2 + _ < _}]
  congr 1
  ext q
  rw [mem_ofPred_eq, near_core p1 p2 hk hrx hry, mem_preimage, mem_ofPred_eq, Prod.fst_add, Prod.snd_add, ← sub_eq_add_neg, ← sub_eq_add_neg]

/-- C137: what a rounded rectangle fills, drawn under any transforms that do not flatten the plane, has the area of the rectangle less four corners (a square of
side `r` less a quarter of a disc, each), times the factor of the transforms, up to 0.2 percent. Here `r` is the given radius, or what fits if this is less. -/
theorem C137_rounded (cfg : DCfg) (h : Hdr) (p1 p2 : Pt ℝ) (radius : ℝ) (hr : 0 < radius) (hx : p1.x ≠ p2.x) (hy : p1.y ≠ p2.y) (m : Mat3 ℝ)
    (hm : Solid (m.mul h.xf)) :
    ∃ q, drawn cfg (.rrect h p1 p2 radius) m = .ok [q] ∧ q.pb = h.pb ∧
      let r := min radius (min (|p1.x - p2.x| / 2) (|p1.y - p2.y| / 2))
      let A := |det2 (m.mul h.xf)| * (|p1.x - p2.x| * |p1.y - p2.y| - (4 - Real.pi) * r ^ 2)
      998 / 1000 * A ≤ areaOf {p | Covers q.pts p} ∧ areaOf {p | Covers q.pts p} ≤ 1001 / 1000 * A := by
  obtain ⟨q, h1, h2, h3⟩ := C133_rounded cfg h p1 p2 radius hr hx hy m hm
  refine ⟨q, h1, h2, ?_⟩
  intro r A
  change ∀ p, ((∃ o, Core p1 p2 r o ∧ distPt o p < 999 / 1000 * r) → _) ∧ ((∀ o, Core p1 p2 r o → (1 + 3 / 10000) * r < distPt o p) → _) at h3
  have w0 : 0 < |p1.x - p2.x| := abs_pos.2 (sub_ne_zero.2 hx)
  have t0 : 0 < |p1.y - p2.y| := abs_pos.2 (sub_ne_zero.2 hy)
  have r0 : 0 < r := lt_min hr (lt_min (by linarith) (by linarith))
  have rx : r ≤ |p1.x - p2.x| / 2 := (min_le_right _ _).trans (min_le_left _ _)
  have ry : r ≤ |p1.y - p2.y| / 2 := (min_le_right _ _).trans (min_le_right _ _)
  have v1 := near_core_volume p1 p2 (r := r) (k := 999 / 1000 * r) (by positivity) rx ry
  have v2 := near_core_volume p1 p2 (r := r) (k := 10004 / 10000 * r) (by positivity) rx ry
  have l1 : volume {q : ℝ × ℝ | ∃ o, Core p1 p2 r o ∧ distPt o ⟨q.1, q.2⟩ < 999 / 1000 * r} ≤
      volume {x : ℝ × ℝ | (⟨x.1, x.2⟩ : Pt ℝ) ∈ {p | (m.mul h.xf).apply p ∈ {p | Covers q.pts p}}} := measure_mono fun x hx => (h3 _).1 hx
  have l2 : volume {x : ℝ × ℝ | (⟨x.1, x.2⟩ : Pt ℝ) ∈ {p | (m.mul h.xf).apply p ∈ {p | Covers q.pts p}}} ≤
      volume {q : ℝ × ℝ | ∃ o, Core p1 p2 r o ∧ distPt o ⟨q.1, q.2⟩ < 10004 / 10000 * r} := by
    refine measure_mono fun x hx => ?_
    have hx' : Covers q.pts ((m.mul h.xf).apply ⟨x.1, x.2⟩) := hx
    have := mt (h3 ⟨x.1, x.2⟩).2 (not_not.2 hx')
    push Not at this
    obtain ⟨o, ho, hd⟩ := this
    exact ⟨o, ho, hd.trans_lt (by nlinarith)⟩
  rw [v1] at l1
  rw [v2] at l2
  have f2 := ENNReal.toReal_mono ENNReal.ofReal_ne_top l2
  have f1 := ENNReal.toReal_mono (ne_top_of_le_ne_top ENNReal.ofReal_ne_top l2) l1
  have a0 := sub_nonneg.2 rx
  have b0 := sub_nonneg.2 ry
  have P := mul_pos Real.pi_pos (pow_pos r0 2)
  generalize ha : |p1.x - p2.x| / 2 - r = a at *
  generalize hb : |p1.y - p2.y| / 2 - r = b at *
  have ew : |p1.x - p2.x| = 2 * (a + r) := by rw [← ha]; ring
  have et : |p1.y - p2.y| = 2 * (b + r) := by rw [← hb]; ring
  have ab := mul_nonneg a0 b0
  have ra := mul_nonneg r0.le a0
  have rb := mul_nonneg r0.le b0
  have eA : |p1.x - p2.x| * |p1.y - p2.y| - (4 - Real.pi) * r ^ 2 = 4 * (a * b) + 4 * (r * a) + 4 * (r * b) + Real.pi * r ^ 2 := by rw [ew, et]; ring
  rw [ENNReal.toReal_ofReal (by nlinarith)] at f1 f2
  have d0 := abs_nonneg (det2 (m.mul h.xf))
  rw [area_preimage _ hm {p | Covers q.pts p}]
  change _ ≤ areaOf {p | (m.mul h.xf).apply p ∈ {p | Covers q.pts p}} at f1
  change areaOf {p | (m.mul h.xf).apply p ∈ {p | Covers q.pts p}} ≤ _ at f2
  simp only [A, eA]
  constructor
  · rw [mul_left_comm]
    exact mul_le_mul_of_nonneg_left (le_trans (by nlinarith) f1) d0
  · rw [mul_left_comm (1001 / 1000 : ℝ)]
    exact mul_le_mul_of_nonneg_left (f2.trans (by nlinarith)) d0

/-- C137: with the radius zero it has exactly the area of the rectangle times the factor of the transforms. -/
theorem C137_rounded_zero (cfg : DCfg) (h : Hdr) (p1 p2 : Pt ℝ) (hx : p1.x ≠ p2.x) (hy : p1.y ≠ p2.y) (m : Mat3 ℝ) :
    ∃ q, drawn cfg (.rrect h p1 p2 0) m = .ok [q] ∧ areaOf {p | Covers q.pts p} = |det2 (m.mul h.xf)| * (|p2.x - p1.x| * |p2.y - p1.y|) := by
  obtain ⟨q, q', h1, h2, -, h3⟩ := C133_zero cfg h p1 p2 hx hy m
  obtain ⟨pts, h4, h5⟩ := C136_rectangle cfg h p1 p2 m
  rw [h2] at h4
  simp only [Except.ok.injEq, List.cons.injEq, and_true] at h4
  subst h4
  refine ⟨q, h1, ?_⟩
  rw [← h5]
  unfold areaOf
  congr 1
  refine measure_congr ?_
  have h0 : ∀ᵐ x : ℝ × ℝ, ¬ OnSide pts ⟨x.1, x.2⟩ := by
    rw [ae_iff]
    simpa using side_null pts
  filter_upwards [h0] with x hx
  exact propext (h3 _ hx)

/-- A rectangle of 4 by 2 with a radius of 7, which is too large: it gets half circles of radius 1 at its ends. -/
example (cfg : DCfg) (pb : PenBrush) : ∃ q, drawn cfg (.rrect ⟨"r".toList, pb, true, Mat3.one⟩ ⟨0, 0⟩ ⟨4, 2⟩ 7) Mat3.one = .ok [q] ∧
    998 / 1000 * (4 + Real.pi) ≤ areaOf {p | Covers q.pts p} ∧ areaOf {p | Covers q.pts p} ≤ 1001 / 1000 * (4 + Real.pi) := by
  obtain ⟨q, h1, -, h2, h3⟩ := C137_rounded cfg ⟨"r".toList, pb, true, Mat3.one⟩ ⟨0, 0⟩ ⟨4, 2⟩ 7 (by norm_num) (by norm_num) (by norm_num) Mat3.one
    (by simp [Solid, Mat3.mul, Mat3.one])
  have e : |det2 ((Mat3.one : Mat3 ℝ).mul Mat3.one)| * (|(0 : ℝ) - 4| * |(0 : ℝ) - 2| - (4 - Real.pi) * (min 7 (min (|(0 : ℝ) - 4| / 2) (|(0 : ℝ) - 2| / 2))) ^ 2) =
      4 + Real.pi := by
    norm_num [det2, Mat3.mul, Mat3.one]
    ring
  rw [e] at h2 h3
  exact ⟨q, h1, h2, h3⟩

end X7.Elem
