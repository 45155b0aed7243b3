import Verif.Lemmas.FillArea
import Verif.Props.Fill
import Verif.Props.AreaCurve
import Verif.Props.FillMove
import Verif.Props.Area

/-!
C136: the area of what is filled.
-/

noncomputable section

namespace X7.Elem
open MeasureTheory Set X7.Approx

theorem edgeF_meas (X : ℝ) (a b : Pt ℝ) : Measurable (edgeF X a b) := by
  unfold edgeF
  split
  · exact measurable_one.indicator (strip_meas X a b)
  · split
    · exact (measurable_one.indicator (strip_meas X b a)).neg
    · exact measurable_const

theorem winding_meas (pts : List (Pt ℝ)) : Measurable fun q : ℝ × ℝ => ((winding pts ⟨q.2, q.1⟩ : ℤ) : ℝ) := by
  obtain ⟨X, hX⟩ := exists_left pts
  simp only [winding_edgeF hX]
  generalize pts.zip (pts.rotate 1) = L
  induction L with
  | nil => simp
  | cons e L ih =>
    simp only [List.map_cons, List.sum_cons]
    exact (edgeF_meas X e.1 e.2).add ih

/-- The covered part, as pairs `(y, x)`. -/
def covered (pts : List (Pt ℝ)) : Set (ℝ × ℝ) := {q | Covers pts ⟨q.2, q.1⟩}

theorem covered_meas (pts : List (Pt ℝ)) : MeasurableSet (covered pts) := by
  have : covered pts = (fun q : ℝ × ℝ => ((winding pts ⟨q.2, q.1⟩ : ℤ) : ℝ)) ⁻¹' ((fun z : ℤ => (z : ℝ)) '' {z | Odd z}) := by
    ext q
    simp only [covered, mem_ofPred_eq, winding_odd, mem_preimage, mem_image, Int.cast_inj, exists_eq_right]
  rw [this]
  exact winding_meas pts (((Set.to_countable {z : ℤ | Odd z}).image _).measurableSet)

theorem covered_finite (pts : List (Pt ℝ)) : volume (covered pts) < ⊤ := by
  refine lt_of_le_of_lt (measure_mono fun q hq => ?_) ((winding_int pts).1.measure_norm_ge_lt_top (ε := 1) one_pos)
  have h : Odd (winding pts ⟨q.2, q.1⟩) := (winding_odd _ _).1 hq
  have h1 : (1 : ℤ) ≤ |winding pts ⟨q.2, q.1⟩| := Int.one_le_abs fun h0 => by rw [h0] at h; exact absurd h (by decide)
  simp only [mem_ofPred_eq, Real.norm_eq_abs]
  exact_mod_cast h1

theorem areaOf_covered (pts : List (Pt ℝ)) : areaOf {p | Covers pts p} = ∫ q, (covered pts).indicator (1 : ℝ × ℝ → ℝ) q := by
  rw [integral_indicator_one (covered_meas pts), measureReal_def, areaOf, Measure.volume_eq_prod]
  have h := (Measure.measurePreserving_swap (μ := (volume : Measure ℝ)) (ν := (volume : Measure ℝ))).measure_preimage (covered_meas pts).nullMeasurableSet
  rw [← h]
  rfl

theorem indicator_int (pts : List (Pt ℝ)) : Integrable ((covered pts).indicator (1 : ℝ × ℝ → ℝ)) := by
  rw [integrable_indicator_iff (covered_meas pts)]
  exact integrableOn_const (covered_finite pts).ne

/-- C136: a polygon covers the points that it goes around an odd number of times (one sense counted positive, the other one negative). -/
theorem C136_odd (pts : List (Pt ℝ)) (p : Pt ℝ) : Covers pts p ↔ Odd (winding pts p) := winding_odd pts p

/-- C136: `polygon_area` is the integral over the plane of how often the polygon goes around a point, for any polygon. -/
theorem C136_integral (pts : List (Pt ℝ)) : Integrable (fun q : ℝ × ℝ => ((winding pts ⟨q.1, q.2⟩ : ℤ) : ℝ)) ∧
    ∫ q : ℝ × ℝ, ((winding pts ⟨q.1, q.2⟩ : ℤ) : ℝ) = polygonArea pts := by
  obtain ⟨h1, h2⟩ := winding_int pts
  rw [Measure.volume_eq_prod] at h1 h2 ⊢
  exact ⟨h1.swap, by rw [← h2, ← integral_prod_swap]; rfl⟩

/-- C136: if the polygon goes around no point more than once, and always in the same sense, then `polygon_area` is the area of what it fills, with the sign of
the sense. -/
theorem C136_area (pts : List (Pt ℝ)) (σ : ℤ) (hσ : σ = 1 ∨ σ = -1) (hw : ∀ p, winding pts p = 0 ∨ winding pts p = σ) :
    polygonArea pts = σ * areaOf {p | Covers pts p} ∧ areaOf {p | Covers pts p} = |polygonArea pts| := by
  have key : polygonArea pts = σ * areaOf {p | Covers pts p} := by
    rw [areaOf_covered, ← integral_const_mul, ← (winding_int pts).2]
    refine integral_congr_ae (.of_forall fun q => ?_)
    simp only
    rcases hw ⟨q.2, q.1⟩ with h | h
    · have : q ∉ covered pts := fun hc => by
        have := (winding_odd _ _).1 hc
        rw [h] at this
        exact absurd this (by decide)
      simp [h, this]
    · have : q ∈ covered pts := by
        show Covers pts ⟨q.2, q.1⟩
        rw [winding_odd, h]
        rcases hσ with rfl | rfl <;> decide
      simp [h, this]
  refine ⟨key, ?_⟩
  have h0 : 0 ≤ areaOf {p | Covers pts p} := ENNReal.toReal_nonneg
  rw [key, abs_mul, abs_of_nonneg h0]
  rcases hσ with rfl | rfl <;> simp

/-- C136: if it goes around no point more than once, in whatever sense, then `polygon_area` is at most the area of what it fills. -/
theorem C136_at_most (pts : List (Pt ℝ)) (hw : ∀ p, |winding pts p| ≤ 1) : |polygonArea pts| ≤ areaOf {p | Covers pts p} := by
  rw [areaOf_covered, ← (winding_int pts).2]
  refine (abs_integral_le_integral_abs).trans (integral_mono (winding_int pts).1.abs (indicator_int pts) fun q => ?_)
  have h := hw ⟨q.2, q.1⟩
  simp only
  by_cases hc : q ∈ covered pts
  · rw [indicator_of_mem hc]
    have : ((|winding pts ⟨q.2, q.1⟩| : ℤ) : ℝ) ≤ 1 := by exact_mod_cast h
    simpa using this
  · have h0 : winding pts ⟨q.2, q.1⟩ = 0 := by
      have h1 : ¬ Odd (winding pts ⟨q.2, q.1⟩) := fun h => hc ((winding_odd _ _).2 h)
      rw [Int.not_odd_iff_even] at h1
      obtain ⟨k, hk⟩ := h1
      rw [abs_le] at h
      omega
    simp [h0, hc]

/-- C136: what a shape with holes fills has the area of its outside less the areas of its holes, if these are inside and apart from each other. -/
theorem C136_holes (cfg : DCfg) (h : Hdr) (o : Elem) (inside : List Elem) (m : Mat3 ℝ) (b : Brush) (po : Path) (qs : List Path)
    (hb : h.pb.brush = some b) (ho : drawn cfg o (m.mul h.xf) = .ok [po]) (hne : po.pts ≠ [])
    (hi : List.Forall₂ (fun e q => drawn cfg e (m.mul h.xf) = .ok [q]) inside qs) (hc : ∀ e ∈ inside, ClosedShape e)
    (hin : ∀ p, ∀ q ∈ qs, Covers q.pts p → Covers po.pts p) (hap : ∀ p, qs.Pairwise (fun q q' => ¬ (Covers q.pts p ∧ Covers q'.pts p))) :
    ∃ fill edges, drawn cfg (.holes h o inside) m = .ok (fill :: edges) ∧
      areaOf {p | Covers fill.pts p} = areaOf {p | Covers po.pts p} - (qs.map fun q => areaOf {p | Covers q.pts p}).sum := by
  obtain ⟨fill, edges, h1, -, -, h2⟩ := C128_region cfg h o inside m b po qs hb ho hne hi hc
  refine ⟨fill, edges, h1, ?_⟩
  have hsum : ∀ l : List Path, Integrable (fun x => (l.map fun q => (covered q.pts).indicator (1 : ℝ × ℝ → ℝ) x).sum) ∧
      ∫ x, (l.map fun q => (covered q.pts).indicator (1 : ℝ × ℝ → ℝ) x).sum = (l.map fun q => areaOf {p | Covers q.pts p}).sum := by
    intro l
    induction l with
    | nil => simp
    | cons q l ih =>
      simp only [List.map_cons, List.sum_cons]
      refine ⟨(indicator_int q.pts).add ih.1, ?_⟩
      rw [integral_add (indicator_int q.pts) ih.1, ih.2, areaOf_covered]
  rw [areaOf_covered, areaOf_covered, ← (hsum qs).2, ← integral_sub (indicator_int _) (hsum qs).1]
  refine integral_congr_ae (.of_forall fun x => ?_)
  simp only
  have h3 := h2 ⟨x.2, x.1⟩ (hin _) (hap _)
  have h4 := hap ⟨x.2, x.1⟩
  have h5 := hin ⟨x.2, x.1⟩
  clear h1 h2 hi hc hin hap hsum
  have hone : ∀ l : List Path, (∀ q ∈ l, ¬ Covers q.pts ⟨x.2, x.1⟩) → (l.map fun q => (covered q.pts).indicator (1 : ℝ × ℝ → ℝ) x).sum = 0 := by
    intro l
    induction l with
    | nil => simp
    | cons q l ih =>
      intro hl
      have : x ∉ covered q.pts := hl q (by simp)
      simp only [List.map_cons, List.sum_cons, indicator_of_notMem this, zero_add]
      exact ih fun q hq => hl q (by simp [hq])
  have htwo : ∀ l : List Path, l.Pairwise (fun q q' => ¬ (Covers q.pts ⟨x.2, x.1⟩ ∧ Covers q'.pts ⟨x.2, x.1⟩)) →
      (∃ q ∈ l, Covers q.pts ⟨x.2, x.1⟩) → (l.map fun q => (covered q.pts).indicator (1 : ℝ × ℝ → ℝ) x).sum = 1 := by
    intro l
    induction l with
    | nil => simp
    | cons q l ih =>
      intro hp he
      rw [List.pairwise_cons] at hp
      simp only [List.map_cons, List.sum_cons]
      by_cases hq : Covers q.pts ⟨x.2, x.1⟩
      · have hm : x ∈ covered q.pts := hq
        rw [indicator_of_mem hm, hone l fun q' hq' hc => hp.1 q' hq' ⟨hq, hc⟩]
        simp
      · have hm : x ∉ covered q.pts := hq
        rw [indicator_of_notMem hm, zero_add]
        refine ih hp.2 ?_
        obtain ⟨q', h1, h2⟩ := he
        rcases List.mem_cons.1 h1 with rfl | h1
        · exact absurd h2 hq
        · exact ⟨q', h1, h2⟩
  by_cases hex : ∃ q ∈ qs, Covers q.pts ⟨x.2, x.1⟩
  · have k1 : x ∉ covered fill.pts := fun hf => by
      obtain ⟨q, hq, hq'⟩ := hex
      exact (h3.1 hf).2 q hq hq'
    have k2 : x ∈ covered po.pts := by
      obtain ⟨q, hq, hq'⟩ := hex
      exact h5 q hq hq'
    rw [htwo qs h4 hex, indicator_of_notMem k1, indicator_of_mem k2]
    simp
  · push Not at hex
    rw [hone qs hex, sub_zero]
    by_cases hp : Covers po.pts ⟨x.2, x.1⟩
    · have k1 : x ∈ covered fill.pts := h3.2 ⟨hp, hex⟩
      have k2 : x ∈ covered po.pts := hp
      rw [indicator_of_mem k1, indicator_of_mem k2]
    · have k1 : x ∉ covered fill.pts := fun hf => hp (h3.1 hf).1
      have k2 : x ∉ covered po.pts := hp
      rw [indicator_of_notMem k1, indicator_of_notMem k2]

/-- C136: what a closed curve element fills, drawn with n points per segment, has the area that the curve encloses times the determinant of the transform, but for
an error of the order 1/n²; if the drawn polygon goes around no point more than once and always in one sense. -/
theorem C136_curve (cfg : DCfg) (h : Hdr) (cps : List (CP ℝ)) (m : Mat3 ℝ) (n : ℕ) (hc : h.closed = true)
    (hn : n = max 1 (if cfg.showCps then 10 else cfg.pointsPerCurve)) :
    ∃ pts, drawn cfg (.curve h cps) m = .ok [⟨h.pb, true, pts⟩] ∧ ∀ σ : ℤ, σ = 1 ∨ σ = -1 → (∀ p, winding pts p = 0 ∨ winding pts p = σ) →
      areaOf {p | Covers pts p} = |det2 (m.mul h.xf) * (enclosed (segs true cps) - ((segs true cps).map err2).sum / n ^ 2 +
        ((segs true cps).map err4).sum / n ^ 4)| := by
  obtain ⟨pts, h1, h2⟩ := C121_curve cfg h cps m n hc hn
  exact ⟨pts, h1, fun σ hσ hw => by rw [(C136_area pts σ hσ hw).2, h2]⟩

/-! ### Convex polygons -/

theorem down_left {a b c d : Pt ℝ} {y : ℝ} (hab : a.y ≤ y ∧ y < b.y) (hcd : d.y ≤ y ∧ y < c.y) (hc : 0 ≤ (b.sub a).cross (c.sub a))
    (hd : 0 ≤ (b.sub a).cross (d.sub a)) : xAt c d y ≤ xAt a b y := by
  simp only [Vec.cross, Pt.sub] at hc hd
  have h1 : 0 < b.y - a.y := by linarith
  have h2 : 0 < c.y - d.y := by linarith
  obtain ⟨t, ht⟩ : ∃ t, t = (y - c.y) / (d.y - c.y) := ⟨_, rfl⟩
  have ht' : t * (c.y - d.y) = c.y - y := by
    rw [ht, show d.y - c.y = -(c.y - d.y) by ring, div_neg, neg_mul, div_mul_cancel₀ _ h2.ne']
    ring
  have t0 : 0 ≤ t := by
    by_contra h
    nlinarith
  have t1 : t ≤ 1 := by
    by_contra h
    nlinarith
  obtain ⟨u, hu⟩ : ∃ u, u = (y - a.y) / (b.y - a.y) := ⟨_, rfl⟩
  have hu' : u * (b.y - a.y) = y - a.y := by rw [hu, div_mul_cancel₀ _ h1.ne']
  unfold xAt
  rw [← ht, ← hu]
  have key : 0 ≤ (b.y - a.y) * (a.x + u * (b.x - a.x) - (c.x + t * (d.x - c.x))) := by
    have e : (b.y - a.y) * (a.x + u * (b.x - a.x) - (c.x + t * (d.x - c.x))) =
        (1 - t) * ((b.x - a.x) * (c.y - a.y) - (b.y - a.y) * (c.x - a.x)) + t * ((b.x - a.x) * (d.y - a.y) - (b.y - a.y) * (d.x - a.x)) := by
      linear_combination (b.x - a.x) * hu' + (b.x - a.x) * ht'
    rw [e]
    exact add_nonneg (mul_nonneg (by linarith) hc) (mul_nonneg t0 hd)
  have := nonneg_of_mul_nonneg_right key h1
  linarith

theorem filter_sum {α : Type*} (P : α → Bool) (f : α → ℤ) (hf : ∀ x, P x = false → f x = 0) : ∀ L : List α, ((L.filter P).map f).sum = (L.map f).sum
  | [] => rfl
  | x :: L => by
    cases h : P x
    · rw [List.filter_cons_of_neg (by simp [h]), filter_sum P f hf L, List.map_cons, List.sum_cons, hf x h, zero_add]
    · rw [List.filter_cons_of_pos h, List.map_cons, List.sum_cons, List.map_cons, List.sum_cons, filter_sum P f hf L]

theorem sense_up {p a b : Pt ℝ} (h : a.y ≤ p.y ∧ p.y < b.y) : sense p a b = if p.x < xAt a b p.y then 1 else 0 := by
  have h1 : ¬ (p.y < a.y ↔ p.y < b.y) := fun hh => absurd (hh.2 h.2) (not_lt.2 h.1)
  simp only [sense, Crosses, h1, not_false_eq_true, true_and, h.1, if_true]
  rfl

theorem sense_down {p a b : Pt ℝ} (h : b.y ≤ p.y ∧ p.y < a.y) : sense p a b = if p.x < xAt a b p.y then -1 else 0 := by
  have h1 : ¬ (p.y < a.y ↔ p.y < b.y) := fun hh => absurd (hh.1 h.2) (not_lt.2 h.1)
  simp only [sense, Crosses, h1, not_false_eq_true, true_and, not_le.2 h.2, if_false]
  rfl

open Classical in
theorem up_down_sum (pts : List (Pt ℝ)) (y : ℝ) :
    ((pts.zip (pts.rotate 1)).map fun e => (if y < e.2.y then (1 : ℤ) else 0) - (if y < e.1.y then 1 else 0)).sum = 0 := by
  have h1 := sum_zipWith_cyc (K := ℚ) (fun a b : Pt ℚ => a.x - b.x) (fun _ _ => 0) (fun a => a.x) (fun a b => by ring)
    (pts.map fun q => ⟨if y < q.y then -1 else 0, 0⟩)
  rw [← List.map_rotate, List.zipWith_map, ← List.map_uncurry_zip_eq_zipWith] at h1
  have h2 : ∀ L : List (Pt ℝ × Pt ℝ), (((L.map fun e => (if y < e.2.y then (1 : ℤ) else 0) - (if y < e.1.y then 1 else 0)).sum : ℤ) : ℚ) =
      (L.map fun e => (if y < e.1.y then (-1 : ℚ) else 0) - (if y < e.2.y then -1 else 0)).sum := by
    intro L
    induction L with
    | nil => simp
    | cons e L ih =>
      simp only [List.map_cons, List.sum_cons]
      push_cast at ih ⊢
      rw [ih]
      split_ifs <;> simp
  have h3 := (h2 (pts.zip (pts.rotate 1))).trans (Eq.trans rfl h1)
  have h4 : ∀ l m : List (Pt ℚ), (List.zipWith (fun _ _ => (0 : ℚ)) l m).sum = 0 := by
    intro l
    induction l with
    | nil => simp
    | cons a l ih => intro m; cases m <;> simp [ih]
  rw [h4] at h3
  exact_mod_cast h3

open Classical in
/-- C136: so for a convex polygon given counter-clockwise (all points are on the left of every side or on it, and no horizontal line is crossed by more than two
sides, so it does not go around twice) `polygon_area` is the area of what it fills. -/
theorem C136_convex (pts : List (Pt ℝ)) (hl : ∀ e ∈ pts.zip (pts.rotate 1), ∀ v ∈ pts, 0 ≤ (e.2.sub e.1).cross (v.sub e.1))
    (h2 : ∀ y, ((pts.zip (pts.rotate 1)).countP fun e => decide (¬ (y < e.1.y ↔ y < e.2.y))) ≤ 2) :
    areaOf {p | Covers pts p} = polygonArea pts := by
  have hw : ∀ p, winding pts p = 0 ∨ winding pts p = 1 := by
    intro p
    have hm : ∀ e ∈ pts.zip (pts.rotate 1), e.1 ∈ pts ∧ e.2 ∈ pts := fun e he => ⟨(List.of_mem_zip he).1, by simpa using (List.of_mem_zip he).2⟩
    have h3 := h2 p.y
    have h4 := up_down_sum pts p.y
    rw [winding]
    generalize pts.zip (pts.rotate 1) = L at *
    let P : Pt ℝ × Pt ℝ → Bool := fun e => decide (¬ (p.y < e.1.y ↔ p.y < e.2.y))
    rw [← filter_sum P _ (fun e he => by
      have : (p.y < e.1.y ↔ p.y < e.2.y) := by simpa [P] using he
      simp [sense, Crosses, this])]
    rw [← filter_sum P _ (fun e he => by
      have : (p.y < e.1.y ↔ p.y < e.2.y) := by simpa [P] using he
      simp [this])] at h4
    rw [List.countP_eq_length_filter] at h3
    have h5 : ∀ e ∈ L.filter P, e ∈ L ∧ ((e.1.y ≤ p.y ∧ p.y < e.2.y) ∨ (e.2.y ≤ p.y ∧ p.y < e.1.y)) := by
      intro e he
      obtain ⟨k1, k2⟩ := List.mem_filter.1 he
      have k3 : ¬ (p.y < e.1.y ↔ p.y < e.2.y) := by simpa only [P, decide_eq_true_eq] using k2
      refine ⟨k1, ?_⟩
      by_cases a1 : p.y < e.1.y <;> by_cases a2 : p.y < e.2.y
      · exact absurd ⟨fun _ => a2, fun _ => a1⟩ k3
      · exact .inr ⟨not_lt.1 a2, a1⟩
      · exact .inl ⟨not_lt.1 a1, a2⟩
      · exact absurd ⟨fun h => absurd h a1, fun h => absurd h a2⟩ k3
    change (L.filter P).length ≤ 2 at h3
    have two : ∀ e f, e ∈ L → f ∈ L → (e.1.y ≤ p.y ∧ p.y < e.2.y) → (f.2.y ≤ p.y ∧ p.y < f.1.y) →
        sense p e.1 e.2 + sense p f.1 f.2 = 0 ∨ sense p e.1 e.2 + sense p f.1 f.2 = 1 := by
      intro e f he hf h6 h7
      have := down_left h6 h7 (hl e he _ (hm f hf).1) (hl e he _ (hm f hf).2)
      rw [sense_up h6, sense_down h7]
      by_cases k1 : p.x < xAt f.1 f.2 p.y
      · have : p.x < xAt e.1 e.2 p.y := by linarith
        simp [k1, this]
      · by_cases k2 : p.x < xAt e.1 e.2 p.y <;> simp [k1, k2]
    generalize L.filter P = S at *
    rcases S with _ | ⟨e, _ | ⟨f, _ | ⟨g, S⟩⟩⟩
    · simp
    · exfalso
      rcases (h5 e (by simp)).2 with h6 | h6
      · simp [h6.2, not_lt.2 h6.1] at h4
      · simp [h6.2, not_lt.2 h6.1] at h4
    · have he := h5 e (by simp)
      have hf := h5 f (by simp)
      simp only [List.map_cons, List.map_nil, List.sum_cons, List.sum_nil, add_zero] at h4 ⊢
      rcases he.2 with h6 | h6 <;> rcases hf.2 with h7 | h7
      · exfalso
        simp [h6.2, not_lt.2 h6.1, h7.2, not_lt.2 h7.1] at h4
      · exact two e f he.1 hf.1 h6 h7
      · rw [add_comm]
        exact two f e hf.1 he.1 h7 h6
      · exfalso
        simp [h6.2, not_lt.2 h6.1, h7.2, not_lt.2 h7.1] at h4
    · simp at h3
  rw [(C136_area pts 1 (.inl rfl) hw).1]
  simp

/-- C136: for a polygon that goes around twice `polygon_area` is not the area of what it fills: here it is 2, and nothing is filled. -/
theorem C136_twice_counterexample : ∃ pts : List (Pt ℝ), polygonArea pts = 2 ∧ areaOf {p | Covers pts p} = 0 := by
  refine ⟨[⟨0, 0⟩, ⟨1, 0⟩, ⟨1, 1⟩, ⟨0, 1⟩, ⟨0, 0⟩, ⟨1, 0⟩, ⟨1, 1⟩, ⟨0, 1⟩], ?_, ?_⟩
  · simp [polygonArea_eq, crs]
    norm_num
  · have : {p : Pt ℝ | Covers [⟨0, 0⟩, ⟨1, 0⟩, ⟨1, 1⟩, ⟨0, 1⟩, ⟨0, 0⟩, ⟨1, 0⟩, ⟨1, 1⟩, ⟨0, 1⟩] p} = ∅ := by
      ext p
      simp only [mem_ofPred_eq, mem_empty_iff_false, iff_false, winding_odd, Int.not_odd_iff_even]
      have e : ∀ A B C D : Pt ℝ, winding [A, B, C, D, A, B, C, D] p =
          (sense p A B + sense p B C + sense p C D + sense p D A) + (sense p A B + sense p B C + sense p C D + sense p D A) := by
        intro A B C D
        simp [winding]
        ring
      exact ⟨_, e _ _ _ _⟩
    rw [this]
    simp [areaOf]

/-- A triangle meets the assumptions of `C136_convex`. -/
example : areaOf {p | Covers [⟨0, 0⟩, ⟨4, 0⟩, ⟨1, 3⟩] p} = 6 := by
  rw [C136_convex]
  · simp [polygonArea_eq, crs]
    norm_num
  · simp [Vec.cross, Pt.sub]
    norm_num
  · intro y
    by_cases h1 : y < 0 <;> by_cases h2 : y < 3 <;> simp [h1, h2]

/-- Heights of the corners of a parallelogram: no more than two sides are crossed at a height. -/
theorem para_two {A B C D : Pt ℝ} (h : A.y + C.y = B.y + D.y) (y : ℝ) :
    (([A, B, C, D, A].zip ([A, B, C, D, A].rotate 1)).countP fun e => decide (¬ (y < e.1.y ↔ y < e.2.y))) ≤ 2 := by
  by_cases h1 : y < A.y <;> by_cases h2 : y < B.y <;> by_cases h3 : y < C.y <;> by_cases h4 : y < D.y <;> simp [h1, h2, h3, h4] <;> linarith

theorem para_area {A B C D : Pt ℝ} (hx : A.x + C.x = B.x + D.x) (hy : A.y + C.y = B.y + D.y) :
    areaOf {p | Covers [A, B, C, D, A] p} = |polygonArea [A, B, C, D, A]| := by
  have e : polygonArea [A, B, C, D, A] = (B.sub A).cross (D.sub A) := by
    have c1 : C.x = B.x + D.x - A.x := by linarith
    have c2 : C.y = B.y + D.y - A.y := by linarith
    simp [polygonArea_eq, crs, Vec.cross, Pt.sub, c1, c2]
    ring
  have pos : ∀ A B C D : Pt ℝ, A.x + C.x = B.x + D.x → A.y + C.y = B.y + D.y → 0 ≤ (B.sub A).cross (D.sub A) →
      areaOf {p | Covers [A, B, C, D, A] p} = polygonArea [A, B, C, D, A] := by
    intro A B C D hx hy h0
    refine C136_convex _ ?_ (para_two hy)
    simp only [Vec.cross, Pt.sub] at h0
    have c1 : C.x = B.x + D.x - A.x := by linarith
    have c2 : C.y = B.y + D.y - A.y := by linarith
    intro e he v hv
    simp only [List.rotate_cons_succ, List.rotate_zero, List.cons_append, List.nil_append, List.zip_cons_cons, List.zip_nil_right, List.mem_cons,
      List.not_mem_nil, or_false] at he hv
    rcases he with rfl | rfl | rfl | rfl | rfl <;> rcases hv with rfl | rfl | rfl | rfl | rfl <;> simp only [Vec.cross, Pt.sub, c1, c2] <;> nlinarith only [h0]
  rcases le_total 0 ((B.sub A).cross (D.sub A)) with h0 | h0
  · rw [pos A B C D hx hy h0, e, abs_of_nonneg h0]
  · have h1 := pos A D C B (by linarith) (by linarith) (by
      simp only [Vec.cross, Pt.sub] at h0 ⊢
      linarith)
    have h2 := C07_reverse [A, B, C, D, A]
    simp only [List.reverse_cons, List.reverse_nil, List.nil_append, List.cons_append] at h2
    have h3 : {p | Covers [A, B, C, D, A] p} = {p | Covers [A, D, C, B, A] p} := by
      ext p
      have := (C130_direction [A, B, C, D, A] p).1
      simpa using this.symm
    rw [h3, h1, h2, abs_of_nonpos (e ▸ h0)]

/-- C136: what a rectangle fills, drawn under any transforms, has the area of the rectangle times the factor by which the transforms change areas. -/
theorem C136_rectangle (cfg : DCfg) (h : Hdr) (p1 p2 : Pt ℝ) (m : Mat3 ℝ) :
    ∃ pts, drawn cfg (.rect h p1 p2) m = .ok [⟨h.pb, h.closed, pts⟩] ∧
      areaOf {p | Covers pts p} = |det2 (m.mul h.xf)| * (|p2.x - p1.x| * |p2.y - p1.y|) := by
  rw [drawn_basic cfg _ (by simp only [Basic])]
  simp only [outline, Except.map, hdr]
  refine ⟨_, rfl, ?_⟩
  have hm := area_mapped (m.mul h.xf) [p1, ⟨p1.x, p2.y⟩, p2, ⟨p2.x, p1.y⟩, p1]
  simp only [List.map_cons, List.map_nil] at hm ⊢
  rw [para_area (by simp only [Mat3.apply]; ring) (by simp only [Mat3.apply]; ring), hm, abs_mul, ← abs_mul (p2.x - p1.x)]
  congr 1
  rw [← abs_neg]
  congr 1
  simp [polygonArea_eq, crs]
  ring

/-! ### Rectangles -/

theorem winding_box {x1 y1 x2 y2 : ℝ} (hx : x1 ≤ x2) (hy : y1 ≤ y2) (p : Pt ℝ) :
    winding [⟨x1, y1⟩, ⟨x1, y2⟩, ⟨x2, y2⟩, ⟨x2, y1⟩, ⟨x1, y1⟩] p = 0 ∨ winding [⟨x1, y1⟩, ⟨x1, y2⟩, ⟨x2, y2⟩, ⟨x2, y1⟩, ⟨x1, y1⟩] p = -1 := by
  classical
  have h0 : ∀ x x' y : ℝ, sense p ⟨x, y⟩ ⟨x', y⟩ = 0 := fun x x' y => by simp [sense, Crosses]
  have hu : sense p ⟨x1, y1⟩ ⟨x1, y2⟩ = if (y1 ≤ p.y ∧ p.y < y2) ∧ p.x < x1 then 1 else 0 := by
    simp only [sense, Crosses, sub_self, mul_zero, add_zero]
    by_cases h1 : p.y < y1
    · have : p.y < y2 := by linarith
      simp [h1, this, not_le.2 h1]
    · by_cases h2 : p.y < y2 <;> simp [h1, h2, not_lt.1 h1]
  have hd : sense p ⟨x2, y2⟩ ⟨x2, y1⟩ = if (y1 ≤ p.y ∧ p.y < y2) ∧ p.x < x2 then -1 else 0 := by
    simp only [sense, Crosses, sub_self, mul_zero, add_zero]
    by_cases h1 : p.y < y1
    · have : p.y < y2 := by linarith
      simp [h1, this, not_le.2 h1]
    · by_cases h2 : p.y < y2
      · simp [h1, h2, not_lt.1 h1, not_le.2 h2]
      · simp [h1, h2]
  have e : winding [⟨x1, y1⟩, ⟨x1, y2⟩, ⟨x2, y2⟩, ⟨x2, y1⟩, ⟨x1, y1⟩] p = sense p ⟨x1, y1⟩ ⟨x1, y2⟩ + sense p ⟨x2, y2⟩ ⟨x2, y1⟩ := by
    simp [winding, h0]
  rw [e, hu, hd]
  by_cases h1 : y1 ≤ p.y ∧ p.y < y2
  · by_cases h2 : p.x < x1
    · have : p.x < x2 := by linarith
      simp [h1, h2, this]
    · by_cases h3 : p.x < x2 <;> simp [h1, h2, h3]
  · simp [h1]

/-- A square of side 4 with a square hole of side 1 fills an area of 15. -/
example (cfg : DCfg) : ∃ fill edges, drawn cfg (.holes ⟨"h".toList, fillPen, true, Mat3.one⟩ (box 0 0 4 4) [box 1 1 2 2]) Mat3.one = .ok (fill :: edges) ∧
    areaOf {p | Covers fill.pts p} = 15 := by
  obtain ⟨fill, edges, h1, h2⟩ := C136_holes cfg ⟨"h".toList, fillPen, true, Mat3.one⟩ (box 0 0 4 4) [box 1 1 2 2] Mat3.one ⟨.name "red"⟩
    (boxPath 0 0 4 4) [boxPath 1 1 2 2] rfl (drawn_box _ _ _ _ _) (by simp [boxPath]) (.cons (drawn_box _ _ _ _ _) .nil) (by simp [box, ClosedShape])
    (by
      intro p q hq hp
      rw [List.mem_singleton.1 hq, boxPath, covers_box] at hp
      rw [boxPath, covers_box]
      norm_num at hp ⊢
      refine ⟨?_, ?_, ?_, ?_⟩ <;> linarith [hp.1, hp.2.1, hp.2.2.1, hp.2.2.2]) (by simp)
  refine ⟨fill, edges, h1, ?_⟩
  rw [h2]
  have e1 := (C136_area _ (-1) (.inr rfl) (winding_box (x1 := 0) (y1 := 0) (x2 := 4) (y2 := 4) (by norm_num) (by norm_num))).2
  have e2 := (C136_area _ (-1) (.inr rfl) (winding_box (x1 := 1) (y1 := 1) (x2 := 2) (y2 := 2) (by norm_num) (by norm_num))).2
  simp only [boxPath, List.map_cons, List.map_nil, List.sum_cons, List.sum_nil, e1, e2]
  simp [polygonArea_eq, crs]
  norm_num

end X7.Elem
