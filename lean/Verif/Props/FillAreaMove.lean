import Verif.Props.FillArea
import Verif.Props.FillSide
import Mathlib.MeasureTheory.Measure.Lebesgue.EqHaar
import Mathlib.MeasureTheory.Measure.Lebesgue.VolumeOfBalls
import Mathlib.MeasureTheory.Measure.Lebesgue.Complex
import Mathlib.LinearAlgebra.Matrix.ToLin
import Mathlib.LinearAlgebra.Determinant

/-!
C137: the area of what is filled follows the transforms, and is that of the ellipse for ellipses.
-/

noncomputable section

namespace X7.Elem
open MeasureTheory Set X7.Approx

/-- The linear part of a transform. -/
def linPart (m : Mat3 ℝ) : ℝ × ℝ →ₗ[ℝ] ℝ × ℝ :=
  Matrix.toLin (Module.Basis.finTwoProd ℝ) (Module.Basis.finTwoProd ℝ) !![m.a, m.b; m.d, m.e]

theorem linPart_apply (m : Mat3 ℝ) (q : ℝ × ℝ) : linPart m q = (m.a * q.1 + m.b * q.2, m.d * q.1 + m.e * q.2) := by
  rw [linPart, Matrix.toLin_finTwoProd_apply]

theorem linPart_det (m : Mat3 ℝ) : LinearMap.det (linPart m) = det2 m := by
  rw [linPart, LinearMap.det_toLin, Matrix.det_fin_two_of]
  simp only [det2]

/-- The volume of what a transform maps into a part of the plane. -/
theorem volume_preimage (m : Mat3 ℝ) (hm : Solid m) (B : Set (Pt ℝ)) :
    volume {q : ℝ × ℝ | (⟨q.1, q.2⟩ : Pt ℝ) ∈ B} = ENNReal.ofReal |det2 m| * volume {q : ℝ × ℝ | m.apply ⟨q.1, q.2⟩ ∈ B} := by
  have hd : LinearMap.det (linPart m) ≠ 0 := by rw [linPart_det]; exact hm
  let S : Set (ℝ × ℝ) := {q | (⟨q.1, q.2⟩ : Pt ℝ) ∈ B}
  have e : {q : ℝ × ℝ | m.apply ⟨q.1, q.2⟩ ∈ B} = (linPart m) ⁻¹' ((fun q => q + (m.c, m.f)) ⁻¹' S) := by
    ext q
    simp only [mem_ofPred_eq, mem_preimage, S, linPart_apply, Mat3.apply, Prod.fst_add, Prod.snd_add]
  rw [e, Measure.addHaar_preimage_linearMap volume hd, measure_preimage_add_right, linPart_det, ← mul_assoc, ← ENNReal.ofReal_mul (abs_nonneg _),
    ← abs_mul, mul_inv_cancel₀ (show det2 m ≠ 0 from hm), abs_one, ENNReal.ofReal_one, one_mul]

/-- The area of what a transform maps into a part of the plane. -/
theorem area_preimage (m : Mat3 ℝ) (hm : Solid m) (B : Set (Pt ℝ)) : areaOf B = |det2 m| * areaOf {p | m.apply p ∈ B} := by
  rw [areaOf, volume_preimage m hm, ENNReal.toReal_mul, ENNReal.toReal_ofReal (abs_nonneg _)]
  rfl

theorem line_null {u v c : ℝ} (h : u ≠ 0 ∨ v ≠ 0) : volume {q : ℝ × ℝ | u * q.1 + v * q.2 = c} = 0 := by
  have hm : MeasurableSet {q : ℝ × ℝ | u * q.1 + v * q.2 = c} :=
    (isClosed_eq (by fun_prop) continuous_const).measurableSet
  rw [Measure.volume_eq_prod]
  by_cases hv : v = 0
  · have hu : u ≠ 0 := by
      rcases h with h | h
      · exact h
      · exact absurd hv h
    have e : {q : ℝ × ℝ | u * q.1 + v * q.2 = c} = {c / u} ×ˢ univ := by
      ext q
      simp only [mem_ofPred_eq, hv, zero_mul, add_zero, mem_prod, mem_singleton_iff, mem_univ, and_true]
      rw [eq_div_iff hu, mul_comm]
    rw [e, Measure.prod_prod]
    simp
  · rw [Measure.measure_prod_null hm]
    refine .of_forall fun x => ?_
    have e : Prod.mk x ⁻¹' {q : ℝ × ℝ | u * q.1 + v * q.2 = c} = {(c - u * x) / v} := by
      ext y
      simp only [mem_preimage, mem_ofPred_eq, mem_singleton_iff]
      rw [eq_div_iff hv]
      constructor <;> intro h <;> linarith
    change volume (Prod.mk x ⁻¹' _) = 0
    rw [e]
    simp

theorem side_null (pts : List (Pt ℝ)) : volume {q : ℝ × ℝ | OnSide pts ⟨q.1, q.2⟩} = 0 := by
  unfold OnSide
  generalize pts.zip (pts.rotate 1) = L
  induction L with
  | nil => simp
  | cons e L ih =>
    refine measure_mono_null (t := {q : ℝ × ℝ | ∃ v, 0 ≤ v ∧ v ≤ 1 ∧ (⟨q.1, q.2⟩ : Pt ℝ) = ⟨e.1.x + v * (e.2.x - e.1.x), e.1.y + v * (e.2.y - e.1.y)⟩} ∪
      {q : ℝ × ℝ | ∃ e ∈ L, ∃ v, 0 ≤ v ∧ v ≤ 1 ∧ (⟨q.1, q.2⟩ : Pt ℝ) = ⟨e.1.x + v * (e.2.x - e.1.x), e.1.y + v * (e.2.y - e.1.y)⟩}) ?_ ?_
    · rintro q ⟨e', he, h⟩
      rcases List.mem_cons.1 he with rfl | he
      · exact .inl h
      · exact .inr ⟨e', he, h⟩
    · rw [measure_union_null_iff]
      refine ⟨?_, ih⟩
      by_cases h : e.2.y - e.1.y = 0 ∧ e.2.x - e.1.x = 0
      · refine measure_mono_null (t := {(e.1.x, e.1.y)}) ?_ (by simp)
        rintro q ⟨v, -, -, hq⟩
        rw [Pt.ext_iff] at hq
        simp only [h.1, h.2, mul_zero, add_zero] at hq
        exact Prod.ext hq.1 hq.2
      · refine measure_mono_null ?_ (line_null (u := e.2.y - e.1.y) (v := -(e.2.x - e.1.x)) (c := (e.2.y - e.1.y) * e.1.x - (e.2.x - e.1.x) * e.1.y) ?_)
        · rintro q ⟨v, -, -, hq⟩
          rw [Pt.ext_iff] at hq
          simp only at hq
          simp only [mem_ofPred_eq]
          rw [hq.1, hq.2]
          ring
        · by_contra hh
          push Not at hh
          exact h ⟨hh.1, neg_eq_zero.1 hh.2⟩

/-- C137: a transform that does not flatten the plane multiplies the area of what any polygon fills by the absolute value of its determinant. -/
theorem C137_transform (m : Mat3 ℝ) (hm : Solid m) (pts : List (Pt ℝ)) :
    areaOf {p | Covers (pts.map m.apply) p} = |det2 m| * areaOf {p | Covers pts p} := by
  rw [area_preimage m hm]
  congr 1
  unfold areaOf
  congr 1
  refine measure_congr ?_
  have h0 : ∀ᵐ q : ℝ × ℝ, ¬ OnSide pts ⟨q.1, q.2⟩ := by
    rw [ae_iff]
    simpa using side_null pts
  filter_upwards [h0] with q hq
  exact propext (C130_transform m hm pts _ hq)

open Classical in
theorem sense_flat {α β : ℝ} {p a b : Pt ℝ} (ha : a.x = α * a.y + β) (hb : b.x = α * b.y + β) :
    sense p a b = if p.x < α * p.y + β then (if p.y < b.y then 1 else 0) - (if p.y < a.y then 1 else 0) else 0 := by
  have hx : a.y ≠ b.y → xAt a b p.y = α * p.y + β := by
    intro h
    have : b.y - a.y ≠ 0 := fun h' => h (by linarith)
    unfold xAt
    rw [ha, hb]
    field_simp
    ring
  by_cases h1 : p.y < a.y <;> by_cases h2 : p.y < b.y
  · simp [sense, Crosses, h1, h2]
  · rw [sense_down ⟨not_lt.1 h2, h1⟩, hx (by intro h; rw [h] at h1; exact h2 h1)]
    simp [h1, h2]
  · rw [sense_up ⟨not_lt.1 h1, h2⟩, hx (by intro h; rw [h] at h1; exact h1 h2)]
    simp [h1, h2]
  · simp [sense, Crosses, h1, h2]

/-- C137: one that flattens the plane leaves nothing filled. -/
theorem C137_flat (m : Mat3 ℝ) (hm : ¬ Solid m) (pts : List (Pt ℝ)) (p : Pt ℝ) : ¬ Covers (pts.map m.apply) p := by
  classical
  have h0 : winding (pts.map m.apply) p = 0 := by
    have hm' : m.a * m.e = m.b * m.d := by
      have : m.a * m.e - m.b * m.d = 0 := not_not.1 hm
      linarith
    have hmem : ∀ e ∈ (pts.map m.apply).zip ((pts.map m.apply).rotate 1), e.1 ∈ pts.map m.apply ∧ e.2 ∈ pts.map m.apply := fun e he =>
      ⟨(List.of_mem_zip he).1, List.mem_rotate.1 (List.of_mem_zip he).2⟩
    have hud := up_down_sum (pts.map m.apply) p.y
    rw [winding]
    by_cases hz : m.d = 0 ∧ m.e = 0
    · have hy : ∀ q ∈ pts.map m.apply, q.y = m.f := by
        intro q hq
        obtain ⟨q0, -, rfl⟩ := List.mem_map.1 hq
        simp [Mat3.apply, hz]
      rw [List.map_congr_left (g := fun _ => (0 : ℤ)) fun e he => by
        simp [sense, Crosses, hy _ (hmem e he).1, hy _ (hmem e he).2]]
      simp
    · obtain ⟨α, h1, h2⟩ : ∃ α, m.a = α * m.d ∧ m.b = α * m.e := by
        by_cases hd : m.d = 0
        · have he : m.e ≠ 0 := fun h => hz ⟨hd, h⟩
          refine ⟨m.b / m.e, ?_, by field_simp⟩
          rw [hd, mul_zero] at hm' ⊢
          exact (mul_eq_zero.1 hm').resolve_right he
        · refine ⟨m.a / m.d, by field_simp, ?_⟩
          field_simp
          linarith
      have hx : ∀ q ∈ pts.map m.apply, q.x = α * q.y + (m.c - α * m.f) := by
        intro q hq
        obtain ⟨q0, -, rfl⟩ := List.mem_map.1 hq
        simp only [Mat3.apply, h1, h2]
        ring
      rw [List.map_congr_left fun e he => sense_flat (p := p) (hx _ (hmem e he).1) (hx _ (hmem e he).2)]
      by_cases hp : p.x < α * p.y + (m.c - α * m.f)
      · simp only [if_pos hp]
        exact hud
      · simp [if_neg hp]
  rw [winding_odd, h0]
  decide

/-- C137: so any element, drawn under a further transform, fills areas multiplied by it, path by path. -/
theorem C137_element (cfg : DCfg) (e : Elem) (he : AffineOwn e) (n m : Mat3 ℝ) (hm : m.Affine) (hn : Solid n) (ps : List Path)
    (hd : drawn cfg e m = .ok ps) :
    ∃ ps', drawn cfg e (n.mul m) = .ok ps' ∧ List.Forall₂ (fun q q' => q'.pb = q.pb ∧
      areaOf {p | Covers q'.pts p} = |det2 n| * areaOf {p | Covers q.pts p}) ps ps' := by
  refine ⟨ps.map (mapped n), by rw [C130_paths cfg e he n m hm, hd]; rfl, ?_⟩
  rw [List.forall₂_map_right_iff, List.forall₂_same]
  exact fun q _ => ⟨rfl, C137_transform n hn q.pts⟩

/-- A rectangle of 2 by 3, drawn as it is and enlarged tenfold in `y`: the filled area is ten times as large. -/
example (cfg : DCfg) (pb : PenBrush) (ps : List Path) (hd : drawn cfg (.rect ⟨"r".toList, pb, true, Mat3.one⟩ ⟨0, 0⟩ ⟨2, 3⟩) Mat3.one = .ok ps) :
    ∃ ps', drawn cfg (.rect ⟨"r".toList, pb, true, Mat3.one⟩ ⟨0, 0⟩ ⟨2, 3⟩) ((⟨1, 0, 0, 0, 10, 0, 0, 0, 1⟩ : Mat3 ℝ).mul Mat3.one) = .ok ps' ∧
      List.Forall₂ (fun q q' => q'.pb = q.pb ∧ areaOf {p | Covers q'.pts p} = 10 * areaOf {p | Covers q.pts p}) ps ps' := by
  have h := C137_element cfg (.rect ⟨"r".toList, pb, true, Mat3.one⟩ ⟨0, 0⟩ ⟨2, 3⟩) (by simp [AffineOwn, Mat3.Affine, Mat3.one])
    ⟨1, 0, 0, 0, 10, 0, 0, 0, 1⟩ Mat3.one (by simp [Mat3.Affine, Mat3.one]) (by simp [Solid]) ps hd
  have e : |det2 (⟨1, 0, 0, 0, 10, 0, 0, 0, 1⟩ : Mat3 ℝ)| = 10 := by norm_num [det2]
  rw [e] at h
  exact h

/-! ### Ellipses -/

theorem disc_area (k : ℝ) (hk : 0 ≤ k) : volume {q : ℝ × ℝ | q.1 ^ 2 + q.2 ^ 2 < k ^ 2} = ENNReal.ofReal (k ^ 2 * Real.pi) := by
  have hm : MeasurableSet {q : ℝ × ℝ | q.1 ^ 2 + q.2 ^ 2 < k ^ 2} := (isOpen_lt (by fun_prop) continuous_const).measurableSet
  have h := Complex.volume_preserving_equiv_real_prod.measure_preimage hm.nullMeasurableSet
  rw [← h]
  have e : Complex.measurableEquivRealProd ⁻¹' {q : ℝ × ℝ | q.1 ^ 2 + q.2 ^ 2 < k ^ 2} = Metric.ball 0 k := by
    ext z
    simp only [mem_preimage, mem_ofPred_eq, Metric.mem_ball, dist_zero_right, Complex.measurableEquivRealProd_apply]
    rw [← sq_lt_sq₀ (norm_nonneg z) hk, Complex.sq_norm, Complex.normSq_apply]
    simp only [sq]
  rw [e, Complex.volume_ball, ENNReal.ofReal_mul (by positivity), ENNReal.ofReal_pow hk]
  congr 1
  rw [← NNReal.coe_real_pi, ENNReal.ofReal_coe_nnreal]

theorem ellipse_area_of (c : Pt ℝ) {rx ry k : ℝ} (hx : 0 < rx) (hy : 0 < ry) (hk : 0 < k) :
    volume {q : ℝ × ℝ | (⟨q.1, q.2⟩ : Pt ℝ) ∈ {p | ellipseRadius c rx ry p < k}} = ENNReal.ofReal (k ^ 2 * Real.pi * (rx * ry)) := by
  let m0 : Mat3 ℝ := ⟨rx, 0, c.x, 0, ry, c.y, 0, 0, 1⟩
  have hs : Solid m0 := by simp [Solid, m0, hx.ne', hy.ne']
  have hd : det2 m0 = rx * ry := by simp [det2, m0]
  have e : {q : ℝ × ℝ | m0.apply ⟨q.1, q.2⟩ ∈ {p | ellipseRadius c rx ry p < k}} = {q : ℝ × ℝ | q.1 ^ 2 + q.2 ^ 2 < k ^ 2} := by
    ext q
    simp only [mem_ofPred_eq, ellipseRadius, m0, Mat3.apply]
    rw [show (rx * q.1 + 0 * q.2 + c.x - c.x) / rx = q.1 by field_simp; ring, show (0 * q.1 + ry * q.2 + c.y - c.y) / ry = q.2 by field_simp; ring,
      Real.sqrt_lt' hk]
  rw [volume_preimage m0 hs, e, hd, abs_of_pos (mul_pos hx hy), disc_area k hk.le, ← ENNReal.ofReal_mul (by positivity)]
  congr 1
  ring

/-- C137: what an ellipse fills, drawn under any transforms that do not flatten the plane, has the area of the ellipse between its corners times the factor of the
transforms, up to 0.2 percent. -/
theorem C137_ellipse (cfg : DCfg) (h : Hdr) (p1 p2 : Pt ℝ) (hx : p1.x ≠ p2.x) (hy : p1.y ≠ p2.y) (m : Mat3 ℝ) (hm : Solid (m.mul h.xf)) :
    ∃ q, drawn cfg (.ellipse h p1 p2) m = .ok [q] ∧ q.pb = h.pb ∧
      let A := |det2 (m.mul h.xf)| * (Real.pi * (|p1.x - p2.x| / 2 * (|p1.y - p2.y| / 2)))
      998 / 1000 * A ≤ areaOf {p | Covers q.pts p} ∧ areaOf {p | Covers q.pts p} ≤ 1001 / 1000 * A := by
  obtain ⟨q, h1, h2, h3⟩ := C131_ellipse cfg h p1 p2 hx hy m hm
  refine ⟨q, h1, h2, ?_⟩
  intro A
  simp only at h3
  have rx0 : 0 < |p1.x - p2.x| / 2 := by have := abs_pos.2 (sub_ne_zero.2 hx); positivity
  have ry0 : 0 < |p1.y - p2.y| / 2 := by have := abs_pos.2 (sub_ne_zero.2 hy); positivity
  have v1 := ellipse_area_of ⟨(p1.x + p2.x) / 2, (p1.y + p2.y) / 2⟩ rx0 ry0 (k := 999 / 1000) (by norm_num)
  have v2 := ellipse_area_of ⟨(p1.x + p2.x) / 2, (p1.y + p2.y) / 2⟩ rx0 ry0 (k := 10004 / 10000) (by norm_num)
  have P0 : 0 ≤ Real.pi * (|p1.x - p2.x| / 2 * (|p1.y - p2.y| / 2)) := mul_nonneg Real.pi_pos.le (mul_pos rx0 ry0).le
  have l1 : volume {q : ℝ × ℝ | (⟨q.1, q.2⟩ : Pt ℝ) ∈ {p | ellipseRadius ⟨(p1.x + p2.x) / 2, (p1.y + p2.y) / 2⟩ (|p1.x - p2.x| / 2) (|p1.y - p2.y| / 2) p < 999 / 1000}} ≤
      volume {x : ℝ × ℝ | (⟨x.1, x.2⟩ : Pt ℝ) ∈ {p | (m.mul h.xf).apply p ∈ {p | Covers q.pts p}}} := measure_mono fun x hx => (h3 _).1 hx
  have l2 : volume {x : ℝ × ℝ | (⟨x.1, x.2⟩ : Pt ℝ) ∈ {p | (m.mul h.xf).apply p ∈ {p | Covers q.pts p}}} ≤
      volume {q : ℝ × ℝ | (⟨q.1, q.2⟩ : Pt ℝ) ∈ {p | ellipseRadius ⟨(p1.x + p2.x) / 2, (p1.y + p2.y) / 2⟩ (|p1.x - p2.x| / 2) (|p1.y - p2.y| / 2) p < 10004 / 10000}} := by
    refine measure_mono fun x hx => ?_
    have hx' : Covers q.pts ((m.mul h.xf).apply ⟨x.1, x.2⟩) := hx
    have := mt (h3 ⟨x.1, x.2⟩).2 (not_not.2 hx')
    simp only [mem_ofPred_eq]
    exact lt_of_le_of_lt (not_lt.1 this) (by norm_num)
  rw [v1] at l1
  rw [v2] at l2
  have f2 := ENNReal.toReal_mono ENNReal.ofReal_ne_top l2
  have f1 := ENNReal.toReal_mono (ne_top_of_le_ne_top ENNReal.ofReal_ne_top l2) l1
  rw [ENNReal.toReal_ofReal (by nlinarith)] at f1 f2
  have e := area_preimage _ hm {p | Covers q.pts p}
  have d0 := abs_nonneg (det2 (m.mul h.xf))
  rw [e]
  change _ ≤ areaOf {p | (m.mul h.xf).apply p ∈ {p | Covers q.pts p}} at f1
  change areaOf {p | (m.mul h.xf).apply p ∈ {p | Covers q.pts p}} ≤ _ at f2
  constructor
  · rw [show 998 / 1000 * A = |det2 (m.mul h.xf)| * (998 / 1000 * (Real.pi * (|p1.x - p2.x| / 2 * (|p1.y - p2.y| / 2)))) by simp only [A]; ring]
    exact mul_le_mul_of_nonneg_left (le_trans (by nlinarith) f1) d0
  · rw [show 1001 / 1000 * A = |det2 (m.mul h.xf)| * (1001 / 1000 * (Real.pi * (|p1.x - p2.x| / 2 * (|p1.y - p2.y| / 2)))) by simp only [A]; ring]
    exact mul_le_mul_of_nonneg_left (f2.trans (by nlinarith)) d0

/-- A circle of radius 1, enlarged twofold in `x` and mirrored. -/
example (cfg : DCfg) (pb : PenBrush) : ∃ q, drawn cfg (.ellipse ⟨"e".toList, pb, true, ⟨-2, 0, 5, 0, 1, 0, 0, 0, 1⟩⟩ ⟨-1, -1⟩ ⟨1, 1⟩) Mat3.one = .ok [q] ∧
    998 / 1000 * (2 * Real.pi) ≤ areaOf {p | Covers q.pts p} ∧ areaOf {p | Covers q.pts p} ≤ 1001 / 1000 * (2 * Real.pi) := by
  obtain ⟨q, h1, -, h2, h3⟩ := C137_ellipse cfg ⟨"e".toList, pb, true, ⟨-2, 0, 5, 0, 1, 0, 0, 0, 1⟩⟩ ⟨-1, -1⟩ ⟨1, 1⟩ (by norm_num) (by norm_num) Mat3.one
    (by simp [Solid, Mat3.mul, Mat3.one])
  have e : |det2 ((Mat3.one : Mat3 ℝ).mul ⟨-2, 0, 5, 0, 1, 0, 0, 0, 1⟩)| * (Real.pi * (|(-1 : ℝ) - 1| / 2 * (|(-1 : ℝ) - 1| / 2))) = 2 * Real.pi := by
    norm_num [det2, Mat3.mul, Mat3.one]
  rw [e] at h2 h3
  exact ⟨q, h1, h2, h3⟩

end X7.Elem
