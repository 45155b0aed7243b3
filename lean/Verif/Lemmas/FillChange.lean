import Verif.Spec.FillChange
import Verif.Props.RoundedArea
import Verif.Props.FillNear
import Verif.Props.CurveLength

/-!
The area of what is near the outline of a polygon.
-/

open MeasureTheory Set X7.Approx
open X7.Utils (distPt)

noncomputable section

namespace X7.Elem

theorem direction (a b : Pt ℝ) : ∃ u v : ℝ, u ^ 2 + v ^ 2 = 1 ∧ b.x - a.x = distPt a b * u ∧ b.y - a.y = distPt a b * v := by
  have e : distPt a b ^ 2 = (a.x - b.x) ^ 2 + (a.y - b.y) ^ 2 := Real.sq_sqrt (by positivity)
  by_cases h : distPt a b = 0
  · rw [h] at e
    refine ⟨1, 0, by norm_num, ?_, ?_⟩ <;> rw [h] <;> nlinarith [sq_nonneg (a.x - b.x), sq_nonneg (a.y - b.y)]
  · refine ⟨(b.x - a.x) / distPt a b, (b.y - a.y) / distPt a b, ?_, by field_simp, by field_simp⟩
    rw [div_pow, div_pow, ← add_div, e, div_eq_one_iff_eq]
    · ring
    · rw [← e]; positivity

/-- The area of what is less than `k` away from a side. -/
theorem side_strip (a b : Pt ℝ) {k : ℝ} (hk : 0 < k) :
    volume {q : ℝ × ℝ | ∃ v, 0 ≤ v ∧ v ≤ 1 ∧ distPt ⟨q.1, q.2⟩ ⟨a.x + v * (b.x - a.x), a.y + v * (b.y - a.y)⟩ < k} ≤
      ENNReal.ofReal (2 * k * distPt a b + Real.pi * k ^ 2) := by
  obtain ⟨u, w, h1, hx, hy⟩ := direction a b
  set ℓ := distPt a b with hl
  have l0 : 0 ≤ ℓ := Real.sqrt_nonneg _
  let m : Mat3 ℝ := ⟨u, -w, (a.x + b.x) / 2, w, u, (a.y + b.y) / 2, 0, 0, 1⟩
  have hd : det2 m = 1 := by simp only [det2, m]; rw [← h1]; ring
  have hs : Solid m := by change det2 m ≠ 0; rw [hd]; exact one_ne_zero
  have hv := volume_preimage m hs {p | ∃ v, 0 ≤ v ∧ v ≤ 1 ∧ distPt p ⟨a.x + v * (b.x - a.x), a.y + v * (b.y - a.y)⟩ < k}
  simp only [mem_ofPred_eq] at hv
  rw [hv, hd, abs_one, ENNReal.ofReal_one, one_mul]
  have hr := rounded_volume (a := ℓ / 2) (b := 0) (by positivity) le_rfl hk
  rw [show 4 * (ℓ / 2) * 0 + 4 * k * (ℓ / 2 + 0) + Real.pi * k ^ 2 = 2 * k * ℓ + Real.pi * k ^ 2 by ring] at hr
  rw [← hr]
  refine measure_mono ?_
  rintro q ⟨v, v0, v1, hlt⟩
  rw [distPt, Real.sqrt_lt' hk] at hlt
  have e1 := shrink_le (d := ℓ / 2) (x := q.1) (u := ℓ * (v - 1 / 2)) (by positivity) (by rw [abs_le]; constructor <;> nlinarith)
  have e2 := shrink_le (d := 0) (x := q.2) (u := 0) le_rfl (by simp)
  simp only [mem_ofPred_eq]
  refine lt_of_le_of_lt (add_le_add e1 e2) (lt_of_eq_of_lt ?_ hlt)
  simp only [m, Mat3.apply]
  have ex : u * q.1 + -w * q.2 + (a.x + b.x) / 2 - (a.x + v * (b.x - a.x)) = u * (q.1 - ℓ * (v - 1 / 2)) - w * q.2 := by linear_combination (1 / 2 - v) * hx
  have ey : w * q.1 + u * q.2 + (a.y + b.y) / 2 - (a.y + v * (b.y - a.y)) = w * (q.1 - ℓ * (v - 1 / 2)) + u * q.2 := by linear_combination (1 / 2 - v) * hy
  rw [ex, ey]
  linear_combination (-(q.1 - ℓ * (v - 1 / 2)) ^ 2 - q.2 ^ 2) * h1

theorem sides_strip (L : List (Pt ℝ × Pt ℝ)) {k : ℝ} (hk : 0 < k) :
    volume {q : ℝ × ℝ | ∃ e ∈ L, ∃ v, 0 ≤ v ∧ v ≤ 1 ∧ distPt ⟨q.1, q.2⟩ ⟨e.1.x + v * (e.2.x - e.1.x), e.1.y + v * (e.2.y - e.1.y)⟩ < k} ≤
      ENNReal.ofReal (2 * k * (L.map fun e => distPt e.1 e.2).sum + L.length * (Real.pi * k ^ 2)) := by
  induction L with
  | nil => simp
  | cons e L ih =>
    have hu := measure_union_le (μ := (volume : Measure (ℝ × ℝ))) {q : ℝ × ℝ | ∃ v, 0 ≤ v ∧ v ≤ 1 ∧ distPt ⟨q.1, q.2⟩ ⟨e.1.x + v * (e.2.x - e.1.x), e.1.y + v * (e.2.y - e.1.y)⟩ < k}
      {q : ℝ × ℝ | ∃ e ∈ L, ∃ v, 0 ≤ v ∧ v ≤ 1 ∧ distPt ⟨q.1, q.2⟩ ⟨e.1.x + v * (e.2.x - e.1.x), e.1.y + v * (e.2.y - e.1.y)⟩ < k}
    have hs : 0 ≤ (L.map fun e => distPt e.1 e.2).sum := List.sum_nonneg fun x hx => by
      obtain ⟨e, -, rfl⟩ := List.mem_map.1 hx
      exact Real.sqrt_nonneg _
    have he : 0 ≤ distPt e.1 e.2 := Real.sqrt_nonneg _
    have hp := mul_pos Real.pi_pos (pow_pos hk 2)
    refine (measure_mono ?_).trans (hu.trans ((add_le_add (side_strip e.1 e.2 hk) ih).trans (le_of_eq ?_)))
    · rintro q ⟨e', he', h⟩
      rcases List.mem_cons.1 he' with rfl | he'
      · exact Or.inl h
      · exact Or.inr ⟨e', he', h⟩
    · rw [← ENNReal.ofReal_add (by positivity) (by positivity)]
      congr 1
      simp only [List.map_cons, List.sum_cons, List.length_cons]
      push_cast
      ring

theorem covers_finite (pts : List (Pt ℝ)) : volume {q : ℝ × ℝ | (⟨q.1, q.2⟩ : Pt ℝ) ∈ {p | Covers pts p}} < ⊤ := by
  have h := (Measure.measurePreserving_swap (μ := (volume : Measure ℝ)) (ν := (volume : Measure ℝ))).measure_preimage (covered_meas pts).nullMeasurableSet
  have hf := covered_finite pts
  rw [Measure.volume_eq_prod] at hf ⊢
  rw [← h] at hf
  exact hf

/-- If two parts of the plane have the same points except near some lines, their areas differ by no more than the area near these. -/
theorem area_change {A B : Set (Pt ℝ)} (hA : volume {q : ℝ × ℝ | (⟨q.1, q.2⟩ : Pt ℝ) ∈ A} < ⊤) {L : List (Pt ℝ × Pt ℝ)} {δ : ℝ} (hδ : 0 ≤ δ)
    (h : ∀ p, (∀ e ∈ L, ∀ x, OnSeg e.1 e.2 x → δ < distPt p x) → (p ∈ A ↔ p ∈ B)) :
    |areaOf A - areaOf B| ≤ 2 * δ * (L.map fun e => distPt e.1 e.2).sum + L.length * (Real.pi * δ ^ 2) := by
  set P := (L.map fun e => distPt e.1 e.2).sum with hP
  have P0 : 0 ≤ P := List.sum_nonneg fun x hx => by
    obtain ⟨e, -, rfl⟩ := List.mem_map.1 hx
    exact Real.sqrt_nonneg _
  have key : ∀ k, δ < k → |areaOf A - areaOf B| ≤ 2 * k * P + L.length * (Real.pi * k ^ 2) := by
    intro k hk
    have k0 : 0 < k := hδ.trans_lt hk
    have hst := sides_strip L k0
    rw [← hP] at hst
    have hp := mul_pos Real.pi_pos (pow_pos k0 2)
    have vol : ∀ A B : Set (Pt ℝ), (∀ p, (∀ e ∈ L, ∀ x, OnSeg e.1 e.2 x → δ < distPt p x) → (p ∈ A ↔ p ∈ B)) →
        volume {q : ℝ × ℝ | (⟨q.1, q.2⟩ : Pt ℝ) ∈ A} ≤ volume {q : ℝ × ℝ | (⟨q.1, q.2⟩ : Pt ℝ) ∈ B} + ENNReal.ofReal (2 * k * P + L.length * (Real.pi * k ^ 2)) := by
      intro A B hq
      refine ((measure_mono ?_).trans (measure_union_le _ _)).trans (add_le_add_right hst _)
      intro q hc
      by_cases hn : ∀ e ∈ L, ∀ x, OnSeg e.1 e.2 x → δ < distPt ⟨q.1, q.2⟩ x
      · exact Or.inl ((hq _ hn).1 hc)
      · push Not at hn
        obtain ⟨e, he, x, ⟨v, v0, v1, rfl⟩, hd⟩ := hn
        exact Or.inr ⟨e, he, v, v0, v1, hd.trans_lt hk⟩
    have hB : volume {q : ℝ × ℝ | (⟨q.1, q.2⟩ : Pt ℝ) ∈ B} < ⊤ :=
      lt_of_le_of_lt (vol B A fun p hp => (h p hp).symm) (ENNReal.add_lt_top.2 ⟨hA, ENNReal.ofReal_lt_top⟩)
    have real : ∀ A B : Set (Pt ℝ), volume {q : ℝ × ℝ | (⟨q.1, q.2⟩ : Pt ℝ) ∈ B} < ⊤ →
        (∀ p, (∀ e ∈ L, ∀ x, OnSeg e.1 e.2 x → δ < distPt p x) → (p ∈ A ↔ p ∈ B)) → areaOf A ≤ areaOf B + (2 * k * P + L.length * (Real.pi * k ^ 2)) := by
      intro A B hB hq
      have ht := ENNReal.toReal_mono (ENNReal.add_ne_top.2 ⟨hB.ne, ENNReal.ofReal_ne_top⟩) (vol A B hq)
      rw [ENNReal.toReal_add hB.ne ENNReal.ofReal_ne_top, ENNReal.toReal_ofReal (by positivity)] at ht
      exact ht
    rw [abs_le]
    constructor
    · linarith [real B A hA fun p hp => (h p hp).symm]
    · linarith [real A B hB h]
  have hc : ContinuousWithinAt (fun k : ℝ => 2 * k * P + L.length * (Real.pi * k ^ 2)) (Ioi δ) δ := by
    apply Continuous.continuousWithinAt
    fun_prop
  exact ge_of_tendsto hc (Filter.eventually_of_mem self_mem_nhdsWithin key)

/-! ### The chords of a curve -/

/-- The lines a path with `n` points per segment follows. -/
def chords (n : ℕ) (ss : List (Poly4 ℝ)) : List (Pt ℝ × Pt ℝ) :=
  ss.flatMap fun s => (List.range n).map fun (i : ℕ) => (s.at' ((i : ℝ) / n), s.at' (((i + 1 : ℕ) : ℝ) / n))

theorem chords_length (n : ℕ) (ss : List (Poly4 ℝ)) : (chords n ss).length = ss.length * n := by
  simp [chords, List.length_flatMap]

theorem chords_len {n : ℕ} (hn : 1 ≤ n) (ss : List (Poly4 ℝ)) : ((chords n ss).map fun e => distPt e.1 e.2).sum ≤ curveLen ss := by
  rw [curveLen]
  induction ss with
  | nil => simp [chords]
  | cons s ss ih =>
    have h := (samples_len hn s).1
    rw [samples, lineLen_range] at h
    simp only [chords, List.flatMap_cons, List.map_append, List.sum_append, List.map_map, List.map_cons, List.sum_cons] at ih ⊢
    exact add_le_add h ih

/-- What is near the curve is near a chord. -/
theorem near_chord {ss : List (Poly4 ℝ)} {M : ℝ} (hM : ∀ s ∈ ss, bend s ≤ M) {n : ℕ} (hn : 1 ≤ n) {p : Pt ℝ}
    (hp : ∀ e ∈ chords n ss, ∀ x, OnSeg e.1 e.2 x → 9 / 4 * M / n ^ 2 < distPt p x) : ∀ q ∈ traced ss, 3 / 2 * M / n ^ 2 < distPt p q := by
  rintro q ⟨s, hs, t, t0, t1, rfl⟩
  have hn0 : (0 : ℝ) < n := by exact_mod_cast hn
  obtain ⟨i, hi, h1, h2⟩ : ∃ i : ℕ, i < n ∧ (i : ℝ) ≤ t * n ∧ t * n ≤ i + 1 := by
    by_cases ht : t = 1
    · refine ⟨n - 1, by omega, ?_, ?_⟩ <;> rw [ht, Nat.cast_sub hn] <;> push_cast <;> linarith
    · have hlt : t < 1 := lt_of_le_of_ne t1 ht
      refine ⟨⌊t * n⌋₊, ?_, Nat.floor_le (by positivity), (Nat.lt_floor_add_one _).le⟩
      rw [Nat.floor_lt (by positivity)]
      nlinarith
  have hi1 : (i : ℝ) / n + 1 / n ≤ 1 := by rw [← add_div, div_le_one hn0]; exact_mod_cast hi
  have hc := chord_close s (a := (i : ℝ) / n) (h := 1 / n) (v := t * n - i) (M := M) (by positivity) (by positivity) hi1 (by linarith) (by linarith) (hM s hs)
  have ea : (i : ℝ) / n + 1 / n = ((i + 1 : ℕ) : ℝ) / n := by push_cast; rw [add_div]
  have et : (i : ℝ) / n + (t * n - i) * (1 / n) = t := by field_simp; ring
  rw [ea, et] at hc
  have hf := hp (s.at' ((i : ℝ) / n), s.at' (((i + 1 : ℕ) : ℝ) / n))
    (List.mem_flatMap.2 ⟨s, hs, List.mem_map.2 ⟨i, List.mem_range.2 hi, rfl⟩⟩) _ ⟨t * n - i, by linarith, by linarith, rfl⟩
  have ht := distPt_tri p (s.at' t) (between (s.at' ((i : ℝ) / n)) (s.at' (((i + 1 : ℕ) : ℝ) / n)) (t * n - i))
  have e2 : 3 / 4 * M * (1 / (n : ℝ)) ^ 2 = 3 / 4 * M / n ^ 2 := by field_simp
  have e3 : 9 / 4 * M / (n : ℝ) ^ 2 = 3 / 2 * M / n ^ 2 + 3 / 4 * M / n ^ 2 := by ring
  rw [e2] at hc
  simp only [e3] at hf
  simp only [between] at ht hc
  linarith

/-- If parts of the plane have the same points except near a curve, their areas differ little. -/
theorem area_near {A B : Set (Pt ℝ)} (hA : volume {q : ℝ × ℝ | (⟨q.1, q.2⟩ : Pt ℝ) ∈ A} < ⊤) {ss : List (Poly4 ℝ)} {M : ℝ} (M0 : 0 ≤ M)
    (hM : ∀ s ∈ ss, bend s ≤ M) {n : ℕ} (hn : 1 ≤ n) (h : ∀ p, (∀ q ∈ traced ss, 3 / 2 * M / n ^ 2 < distPt p q) → (p ∈ A ↔ p ∈ B)) :
    |areaOf A - areaOf B| ≤ (9 / 2 * M * curveLen ss + 16 * ss.length * M ^ 2) / n ^ 2 := by
  have hn0 : (1 : ℝ) ≤ n := by exact_mod_cast hn
  refine (area_change hA (L := chords n ss) (δ := 9 / 4 * M / n ^ 2) (by positivity) fun p hp => h p (near_chord hM hn hp)).trans ?_
  rw [chords_length, add_div]
  refine add_le_add ?_ ?_
  · calc _ ≤ 2 * (9 / 4 * M / n ^ 2) * curveLen ss := mul_le_mul_of_nonneg_left (chords_len hn ss) (by positivity)
      _ = _ := by ring
  · have hpi : Real.pi * (81 / 16) ≤ 16 := by nlinarith [Real.pi_lt_d4]
    have e : ((ss.length * n : ℕ) : ℝ) * (Real.pi * (9 / 4 * M / n ^ 2) ^ 2) = (Real.pi * (81 / 16)) * ss.length * M ^ 2 / n ^ 2 * (1 / n) := by
      push_cast
      field_simp
      ring
    rw [e]
    calc _ ≤ (Real.pi * (81 / 16)) * ss.length * M ^ 2 / n ^ 2 * 1 :=
          mul_le_mul_of_nonneg_left (by rw [div_le_one (by linarith)]; exact hn0) (by positivity)
      _ ≤ _ := by rw [mul_one]; gcongr

end X7.Elem
