import Verif.Lemmas.WindNear

/-!
C138: how often a drawn curve goes around a point does not depend on the number of points, away from the curve; and the area of a curve that does not cross itself.
-/

open MeasureTheory Set X7.Approx
open X7.Utils (distPt)

noncomputable section

namespace X7.Elem

/-- C138: a curve drawn with more points goes around each point as often as before, except for points nearer to the curve than the bound. -/
theorem C138_winding (h : Hdr) (cps : List (CP ℝ)) (m : Mat3 ℝ) (M : ℝ) (hM : ∀ s ∈ segs h.closed cps, bend (s.map (m.mul h.xf).apply) ≤ M)
    (cfg cfg' : DCfg) (hc : cfg.showCps = false) (hc' : cfg'.showCps = false) (h1 : 1 ≤ cfg.pointsPerCurve) (hle : cfg.pointsPerCurve ≤ cfg'.pointsPerCurve) :
    ∃ q q', drawn cfg (.curve h cps) m = .ok [q] ∧ drawn cfg' (.curve h cps) m = .ok [q'] ∧
      ∀ p, (∀ x ∈ traced ((segs h.closed cps).map (Poly4.map (m.mul h.xf).apply)), 3 / 2 * M / cfg.pointsPerCurve ^ 2 < distPt p x) →
        winding q.pts p = winding q'.pts p := by
  refine ⟨_, _, drawn_basic cfg _ (by simp only [Elem.Basic]) m, drawn_basic cfg' _ (by simp only [Elem.Basic]) m, fun p hp => ?_⟩
  simp only [hdr, hc, hc']
  rw [← pathOf_map, ← pathOf_map]
  simp only [Bool.false_eq_true, if_false, max_eq_right h1, max_eq_right (h1.trans hle)]
  refine winding_steps (segs_joins h.closed cps _) (fun s hs => ?_) h1 hle hp
  obtain ⟨x, hx, rfl⟩ := List.mem_map.1 hs
  exact hM x hx

theorem sense_abs (p a b : Pt ℝ) : |sense p a b| ≤ 1 := by
  unfold sense
  split_ifs <;> simp

theorem winding_abs (pts : List (Pt ℝ)) (p : Pt ℝ) : |winding pts p| ≤ pts.length := by
  rw [winding]
  have : ∀ L : List (Pt ℝ × Pt ℝ), |(L.map fun e => sense p e.1 e.2).sum| ≤ L.length := by
    intro L
    induction L with
    | nil => simp
    | cons e L ih =>
      simp only [List.map_cons, List.sum_cons, List.length_cons]
      push_cast
      have := sense_abs p e.1 e.2
      have := abs_add_le (sense p e.1 e.2) (L.map fun e => sense p e.1 e.2).sum
      linarith
  refine (this _).trans ?_
  simp

/-- If a polygon goes around the points away from some lines at most once and in one sense, its area is that of what it fills but for what is near the lines. -/
theorem area_winding (pts : List (Pt ℝ)) (σ : ℤ) (hσ : σ = 1 ∨ σ = -1) (L : List (Pt ℝ × Pt ℝ)) {δ k : ℝ} (k0 : 0 < k) (hk : δ < k)
    (h : ∀ p, (∀ e ∈ L, ∀ x, OnSeg e.1 e.2 x → δ < distPt p x) → winding pts p = 0 ∨ winding pts p = σ) :
    |polygonArea pts - σ * areaOf {p | Covers pts p}| ≤ (pts.length + 1) * (2 * k * (L.map fun e => distPt e.1 e.2).sum + L.length * (Real.pi * k ^ 2)) := by
  set P := (L.map fun e => distPt e.1 e.2).sum with hP
  have P0 : 0 ≤ P := List.sum_nonneg fun x hx => by
    obtain ⟨e, -, rfl⟩ := List.mem_map.1 hx
    exact Real.sqrt_nonneg _
  have hst := sides_strip L k0
  rw [← hP] at hst
  set near := {q : ℝ × ℝ | ∃ e ∈ L, ∃ v, 0 ≤ v ∧ v ≤ 1 ∧ distPt ⟨q.1, q.2⟩ ⟨e.1.x + v * (e.2.x - e.1.x), e.1.y + v * (e.2.y - e.1.y)⟩ < k} with hnear
  set t := toMeasurable volume (near) with ht
  have htm : MeasurableSet t := measurableSet_toMeasurable _ _
  have htv : volume t ≤ ENNReal.ofReal (2 * k * P + L.length * (Real.pi * k ^ 2)) := by rw [ht, measure_toMeasurable]; exact hst
  have hsw : volume (Prod.swap ⁻¹' t) = volume t := by
    rw [Measure.volume_eq_prod]
    exact (Measure.measurePreserving_swap (μ := (volume : Measure ℝ)) (ν := (volume : Measure ℝ))).measure_preimage htm.nullMeasurableSet
  obtain ⟨i1, i2⟩ := winding_int pts
  have i3 := (indicator_int pts).const_mul (σ : ℝ)
  have e : polygonArea pts - σ * areaOf {p | Covers pts p} =
      ∫ q : ℝ × ℝ, (((winding pts ⟨q.2, q.1⟩ : ℤ) : ℝ) - σ * (covered pts).indicator (1 : ℝ × ℝ → ℝ) q) := by
    rw [integral_sub i1 i3, i2, integral_const_mul, areaOf_covered]
  have hb : ∀ q : ℝ × ℝ, ‖((winding pts ⟨q.2, q.1⟩ : ℤ) : ℝ) - σ * (covered pts).indicator (1 : ℝ × ℝ → ℝ) q‖ₑ ≤
      (Prod.swap ⁻¹' t).indicator (fun _ => ENNReal.ofReal (pts.length + 1)) q := by
    intro q
    by_cases hq : q ∈ Prod.swap ⁻¹' t
    · rw [indicator_of_mem hq, ← ofReal_norm_eq_enorm]
      refine ENNReal.ofReal_le_ofReal ((norm_sub_le _ _).trans (add_le_add ?_ ?_))
      · rw [Real.norm_eq_abs]
        exact_mod_cast winding_abs pts ⟨q.2, q.1⟩
      · by_cases hc : q ∈ covered pts
        · rw [indicator_of_mem hc]
          rcases hσ with rfl | rfl <;> simp
        · rw [indicator_of_notMem hc]; simp
    · have hfar : ∀ e ∈ L, ∀ x, OnSeg e.1 e.2 x → δ < distPt ⟨q.2, q.1⟩ x := by
        rintro e he x ⟨v, v0, v1, rfl⟩
        by_contra hd
        exact hq (subset_toMeasurable volume near ⟨e, he, v, v0, v1, (not_lt.1 hd).trans_lt hk⟩)
      have hz : ((winding pts ⟨q.2, q.1⟩ : ℤ) : ℝ) - σ * (covered pts).indicator (1 : ℝ × ℝ → ℝ) q = 0 := by
        rcases h _ hfar with h0 | h0
        · have hc : q ∉ covered pts := fun hc => by
            have := (winding_odd _ _).1 hc
            rw [h0] at this
            exact absurd this (by decide)
          rw [indicator_of_notMem hc, h0]; simp
        · have hc : q ∈ covered pts := (winding_odd _ _).2 (by rw [h0]; rcases hσ with rfl | rfl <;> decide)
          rw [indicator_of_mem hc, h0]; simp
      rw [hz]; simp
  have hall : ‖polygonArea pts - σ * areaOf {p | Covers pts p}‖ₑ ≤
      ENNReal.ofReal ((pts.length + 1) * (2 * k * P + L.length * (Real.pi * k ^ 2))) := by
    rw [e]
    refine (enorm_integral_le_lintegral_enorm _).trans ((lintegral_mono hb).trans ?_)
    rw [lintegral_indicator_const (measurable_swap htm), hsw, ENNReal.ofReal_mul (by positivity)]
    exact mul_le_mul_right htv _
  rw [← ofReal_norm_eq_enorm, ENNReal.ofReal_le_ofReal_iff (by have := mul_pos Real.pi_pos (pow_pos k0 2); positivity)] at hall
  exact hall

theorem pathOf_length (n : ℕ) (ss : List (Poly4 ℝ)) : (pathOf n ss).length ≤ ss.length * n + 1 := by
  cases ss with
  | nil => simp [pathOf]
  | cons s ss =>
    simp [pathOf, List.length_flatMap]
    nlinarith

/-- C138: if a closed curve goes around each point off the curve either not at all or once in one sense (with enough points), the area of what it fills with
enough points is exactly the area it encloses times the factor of the transforms. -/
theorem C138_simple (h : Hdr) (cps : List (CP ℝ)) (m : Mat3 ℝ) (hc : h.closed = true) (σ : ℤ) (hσ : σ = 1 ∨ σ = -1)
    (hw : ∀ p ∉ traced ((segs true cps).map (Poly4.map (m.mul h.xf).apply)), ∀ N, ∃ n, N ≤ n ∧
      ∃ q, drawn ⟨false, n⟩ (.curve h cps) m = .ok [q] ∧ (winding q.pts p = 0 ∨ winding q.pts p = σ)) :
    σ * areaOf (settled h cps m) = det2 (m.mul h.xf) * enclosed (segs true cps) := by
  set ss := (segs true cps).map (Poly4.map (m.mul h.xf).apply) with hss
  obtain ⟨M, M0, hM⟩ := bends_le ss
  have hM' : ∀ s ∈ segs h.closed cps, bend (s.map (m.mul h.xf).apply) ≤ M := fun s hs => hM _ (List.mem_map.2 ⟨s, by rwa [hc] at hs, rfl⟩)
  have hlen : ss.length = (segs true cps).length := by simp [hss]
  have hd : ∀ n, 1 ≤ n → drawn ⟨false, n⟩ (.curve h cps) m = .ok [⟨h.pb, true, pathOf n ss⟩] := by
    intro n hn
    rw [drawn_basic _ _ (by simp only [Elem.Basic]) m]
    simp only [hdr, outline, Except.map, hc, Bool.false_eq_true, if_false, max_eq_right hn]
    rw [← pathOf_map]
  set C := 9 / 2 * M * curveLen ss + 16 * ss.length * M ^ 2 with hC
  set d := det2 (m.mul h.xf)
  set E := enclosed (segs true cps)
  set e2 := ((segs true cps).map err2).sum
  set e4 := ((segs true cps).map err4).sum
  set c := 9 / 4 * M + 1 with hcc
  have l0 : 0 ≤ curveLen ss := le_trans (List.sum_nonneg fun x hx => by
    obtain ⟨e, -, rfl⟩ := List.mem_map.1 hx
    exact Real.sqrt_nonneg _) (chords_len le_rfl ss)
  set F := (ss.length + 2) * (2 * c * curveLen ss + ss.length * (Real.pi * c ^ 2)) with hF
  have c0 : 0 < c := by positivity
  have F0 : 0 ≤ F := by have := Real.pi_pos; positivity
  set D := |C| + F + |d| * (|e2| + |e4|) with hD
  have D0 : 0 ≤ D := by positivity
  have main : ∀ n : ℕ, 1 ≤ n → |σ * areaOf (settled h cps m) - d * E| ≤ D / n := by
    intro n h1
    have n1 : (1 : ℝ) ≤ n := by exact_mod_cast h1
    have n0 : (0 : ℝ) < n := by linarith
    have n2 : (n : ℝ) ≤ (n : ℝ) ^ 2 := by nlinarith
    have n3 : (n : ℝ) ^ 2 ≤ (n : ℝ) ^ 4 := pow_le_pow_right₀ n1 (by norm_num)
    have n4 : (n : ℝ) ≤ (n : ℝ) ^ 4 := n2.trans n3
    obtain ⟨q, hq, hA⟩ := C138_limit h cps m M M0 hM' ⟨false, n⟩ rfl h1
    obtain ⟨pts, hp, hB⟩ := C121_curve ⟨false, n⟩ h cps m n hc (by simp [h1])
    rw [hd n h1] at hq hp
    simp only [Except.ok.injEq, List.cons.injEq, and_true] at hq hp
    subst hq
    obtain rfl : pathOf n ss = pts := by injection hp
    simp only [hc] at hA
    rw [← hss, ← hlen, ← hC] at hA
    have hfar : ∀ p, (∀ e ∈ chords n ss, ∀ x, OnSeg e.1 e.2 x → 9 / 4 * M / n ^ 2 < distPt p x) →
        winding (pathOf n ss) p = 0 ∨ winding (pathOf n ss) p = σ := by
      intro p hp
      have hp' := near_chord hM h1 hp
      obtain ⟨n', hn', q, hq, hwq⟩ := hw p (fun hh => by
        have := hp' p hh
        rw [show distPt p p = 0 by simp [distPt]] at this
        have : 0 ≤ 3 / 2 * M / (n : ℝ) ^ 2 := by positivity
        linarith) n
      rw [hd n' (h1.trans hn')] at hq
      simp only [Except.ok.injEq, List.cons.injEq, and_true] at hq
      subst hq
      have hj := segs_joins true cps (m.mul h.xf).apply
      rw [winding_steps hj hM h1 hn' hp']
      exact hwq
    have hW := area_winding (pathOf n ss) σ hσ (chords n ss) (δ := 9 / 4 * M / n ^ 2) (k := c / n ^ 2) (by positivity)
      (by rw [hcc]; gcongr; linarith) hfar
    rw [chords_length] at hW
    have hW' : |polygonArea (pathOf n ss) - σ * areaOf {p | Covers (pathOf n ss) p}| ≤ F / n := by
      refine hW.trans ?_
      have hl1 : (((pathOf n ss).length : ℕ) : ℝ) + 1 ≤ (ss.length + 2) * n := by
        have : (((pathOf n ss).length : ℕ) : ℝ) ≤ ss.length * n + 1 := by exact_mod_cast pathOf_length n ss
        nlinarith
      have hl2 : 2 * (c / n ^ 2) * ((chords n ss).map fun e => distPt e.1 e.2).sum + ((ss.length * n : ℕ) : ℝ) * (Real.pi * (c / n ^ 2) ^ 2) ≤
          (2 * c * curveLen ss + ss.length * (Real.pi * c ^ 2)) / n ^ 2 := by
        rw [add_div (2 * c * curveLen ss)]
        refine add_le_add ?_ ?_
        · calc _ ≤ 2 * (c / n ^ 2) * curveLen ss := mul_le_mul_of_nonneg_left (chords_len h1 ss) (by positivity)
            _ = _ := by ring
        · push_cast
          have hpi := Real.pi_pos
          rw [show (ss.length : ℝ) * n * (Real.pi * (c / n ^ 2) ^ 2) = (ss.length * (Real.pi * c ^ 2)) / n ^ 3 by field_simp]
          exact div_le_div_of_nonneg_left (by positivity) (by positivity) (pow_le_pow_right₀ n1 (by norm_num))
      calc _ ≤ ((ss.length + 2) * n) * ((2 * c * curveLen ss + ss.length * (Real.pi * c ^ 2)) / n ^ 2) := by
            refine mul_le_mul hl1 hl2 ?_ (by positivity)
            have := Real.pi_pos
            have : 0 ≤ ((chords n ss).map fun e => distPt e.1 e.2).sum := by
              refine List.sum_nonneg fun x hx => ?_
              obtain ⟨e, -, rfl⟩ := List.mem_map.1 hx
              exact Real.sqrt_nonneg _
            positivity
        _ = F / n := by rw [hF]; field_simp
    rw [hB] at hW'
    have s1 : |(σ : ℝ)| = 1 := by rcases hσ with rfl | rfl <;> simp
    have hA' : |σ * areaOf {p | Covers (pathOf n ss) p} - σ * areaOf (settled h cps m)| ≤ |C| / n := by
      rw [← mul_sub, abs_mul, s1, one_mul]
      exact hA.trans ((div_le_div_of_nonneg_right (le_abs_self C) (by positivity)).trans (by gcongr))
    have hdiff : |d * (E - e2 / n ^ 2 + e4 / n ^ 4) - d * E| ≤ |d| * (|e2| + |e4|) / n := by
      rw [show d * (E - e2 / n ^ 2 + e4 / n ^ 4) - d * E = d * (e4 / n ^ 4 - e2 / n ^ 2) by ring, abs_mul, mul_div_assoc, add_comm |e2|, add_div]
      refine mul_le_mul_of_nonneg_left ((abs_sub _ _).trans ?_) (abs_nonneg _)
      rw [abs_div, abs_div, abs_of_nonneg (by positivity : (0 : ℝ) ≤ (n : ℝ) ^ 4), abs_of_nonneg (by positivity : (0 : ℝ) ≤ (n : ℝ) ^ 2)]
      gcongr
    rw [abs_sub_comm] at hA' hW'
    rw [hD, add_div, add_div]
    exact (abs_sub_le _ _ _).trans (add_le_add ((abs_sub_le _ _ _).trans (add_le_add hA' hW')) hdiff)
  by_contra hne
  have hpos : 0 < |σ * areaOf (settled h cps m) - d * E| := abs_pos.2 (sub_ne_zero.2 hne)
  obtain ⟨N, hN⟩ := exists_nat_gt (D / |σ * areaOf (settled h cps m) - d * E|)
  have hm := main (N + 1) (by omega)
  rw [div_lt_iff₀ hpos] at hN
  push_cast at hm
  have : (0 : ℝ) ≤ N := Nat.cast_nonneg N
  rw [le_div_iff₀ (by linarith)] at hm
  nlinarith

/-- A rectangle as a curve without handles: it goes around each point not at all or once, so the area of what it fills is that of the rectangle. -/
example (pb : PenBrush) : let cps : List (CP ℝ) := [⟨⟨0, 0⟩, ⟨0, 0⟩, ⟨0, 0⟩, "sharp"⟩, ⟨⟨0, 3⟩, ⟨0, 0⟩, ⟨0, 0⟩, "sharp"⟩, ⟨⟨2, 3⟩, ⟨0, 0⟩, ⟨0, 0⟩, "sharp"⟩,
      ⟨⟨2, 0⟩, ⟨0, 0⟩, ⟨0, 0⟩, "sharp"⟩, ⟨⟨0, 0⟩, ⟨0, 0⟩, ⟨0, 0⟩, "sharp"⟩]
    ((-1 : ℤ) : ℝ) * areaOf (settled ⟨"c".toList, pb, true, Mat3.one⟩ cps Mat3.one) = det2 ((Mat3.one : Mat3 ℝ).mul Mat3.one) * enclosed (segs true cps) := by
  intro cps
  have one : ∀ p : Pt ℝ, ((Mat3.one : Mat3 ℝ).mul Mat3.one).apply p = p := fun p => by ext <;> simp [Mat3.apply, Mat3.one, Mat3.mul]
  refine C138_simple ⟨"c".toList, pb, true, Mat3.one⟩ cps Mat3.one rfl (-1) (Or.inr rfl) fun p _ N => ⟨N, le_rfl, ?_⟩
  obtain ⟨q, h1, h2⟩ := C138_corners ⟨false, N⟩ ⟨"c".toList, pb, true, Mat3.one⟩ cps Mat3.one rfl (by simp [cps])
  refine ⟨q, h1, ?_⟩
  rw [(h2 p).1]
  simp only [cps, List.map_cons, List.map_nil, one]
  exact winding_box (by norm_num) (by norm_num) p

end X7.Elem
