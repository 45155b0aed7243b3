import Verif.Spec.FillArea
import Verif.Lemmas.Fill
import Verif.Lemmas.Area
import Mathlib.MeasureTheory.Measure.Lebesgue.Integral
import Mathlib.MeasureTheory.Integral.Prod
import Mathlib.Analysis.SpecialFunctions.Integrals.Basic

/-!
The integral of the winding number of a polygon.
-/

noncomputable section

namespace X7.Elem
open MeasureTheory Set

/-- The `x` of the line from `a` to `b` at height `y`. -/
def xAt (a b : Pt ℝ) (y : ℝ) : ℝ := a.x + (y - a.y) / (b.y - a.y) * (b.x - a.x)

/-- The points (as `(y, x)`) right of `X` and left of a line that goes up. -/
def strip (X : ℝ) (a b : Pt ℝ) : Set (ℝ × ℝ) := regionBetween (fun _ => X) (xAt a b) (Ico a.y b.y)

theorem xAt_cont (a b : Pt ℝ) : Continuous (xAt a b) := by unfold xAt; fun_prop

theorem strip_meas (X : ℝ) (a b : Pt ℝ) : MeasurableSet (strip X a b) :=
  measurableSet_regionBetween measurable_const (xAt_cont a b).measurable measurableSet_Ico

theorem xAt_gt {X : ℝ} {a b : Pt ℝ} (ha : X < a.x) (hb : X < b.x) {y : ℝ} (hy : y ∈ Ico a.y b.y) : X < xAt a b y := by
  obtain ⟨h1, h2⟩ := hy
  have hd : 0 < b.y - a.y := by linarith
  have v0 : 0 ≤ (y - a.y) / (b.y - a.y) := div_nonneg (by linarith) hd.le
  have v1 : (y - a.y) / (b.y - a.y) ≤ 1 := by rw [div_le_one hd]; linarith
  unfold xAt
  nlinarith [mul_nonneg v0 (sub_nonneg.2 hb.le), mul_nonneg (sub_nonneg.2 v1) (sub_nonneg.2 ha.le)]

theorem strip_volume {X : ℝ} {a b : Pt ℝ} (ha : X < a.x) (hb : X < b.x) (hy : a.y < b.y) :
    volume (strip X a b) = ENNReal.ofReal ((b.y - a.y) * ((a.x + b.x) / 2 - X)) := by
  have hi : IntegrableOn (xAt a b) (Ico a.y b.y) := ((xAt_cont a b).integrableOn_Icc).mono_set Ico_subset_Icc_self
  have hc : IntegrableOn (fun _ : ℝ => X) (Ico a.y b.y) := (continuous_const.integrableOn_Icc).mono_set Ico_subset_Icc_self
  rw [strip, Measure.volume_eq_prod, volume_regionBetween_eq_integral hc hi measurableSet_Ico fun y hy => (xAt_gt ha hb hy).le]
  congr 1
  rw [integral_Ico_eq_integral_Ioc, ← intervalIntegral.integral_of_le hy.le]
  have hd : b.y - a.y ≠ 0 := by linarith
  have e : ∀ y, (xAt a b - fun _ : ℝ => X : ℝ → ℝ) y = (a.x - X - a.y * ((b.x - a.x) / (b.y - a.y))) + (b.x - a.x) / (b.y - a.y) * y := by
    intro y
    simp only [Pi.sub_apply, xAt]
    field_simp
    ring
  simp only [e]
  rw [intervalIntegral.integral_add (by simp) (Continuous.intervalIntegrable (by fun_prop) _ _), intervalIntegral.integral_const,
    intervalIntegral.integral_const_mul, integral_id, smul_eq_mul]
  field_simp
  ring

open Classical in
/-- What a line adds to the winding number, cut off at `X`. -/
def edgeF (X : ℝ) (a b : Pt ℝ) (q : ℝ × ℝ) : ℝ :=
  if a.y < b.y then (strip X a b).indicator 1 q else if b.y < a.y then -(strip X b a).indicator 1 q else 0

theorem strip_int {X : ℝ} {a b : Pt ℝ} (ha : X < a.x) (hb : X < b.x) (hy : a.y < b.y) :
    Integrable ((strip X a b).indicator (1 : ℝ × ℝ → ℝ)) ∧ ∫ q, (strip X a b).indicator (1 : ℝ × ℝ → ℝ) q = (b.y - a.y) * ((a.x + b.x) / 2 - X) := by
  have hv := strip_volume ha hb hy
  have h0 : 0 ≤ (b.y - a.y) * ((a.x + b.x) / 2 - X) := mul_nonneg (by linarith) (by linarith)
  refine ⟨?_, ?_⟩
  · rw [integrable_indicator_iff (strip_meas X a b)]
    exact integrableOn_const (by rw [hv]; exact ENNReal.ofReal_ne_top)
  · rw [integral_indicator_one (strip_meas X a b), measureReal_def, hv, ENNReal.toReal_ofReal h0]

theorem edgeF_int {X : ℝ} {a b : Pt ℝ} (ha : X < a.x) (hb : X < b.x) :
    Integrable (edgeF X a b) ∧ ∫ q, edgeF X a b q = (b.y - a.y) * ((a.x + b.x) / 2 - X) := by
  rcases lt_trichotomy a.y b.y with h | h | h
  · have e : edgeF X a b = (strip X a b).indicator 1 := by funext q; simp [edgeF, h]
    rw [e]; exact strip_int ha hb h
  · have e : edgeF X a b = fun _ => 0 := by funext q; simp [edgeF, h]
    rw [e, h]; simp
  · have e : edgeF X a b = fun q => -(strip X b a).indicator 1 q := by funext q; simp [edgeF, h, h.not_gt]
    have := strip_int hb ha h
    rw [e]
    refine ⟨this.1.neg, ?_⟩
    rw [integral_neg, this.2]
    ring

theorem edges_int {X : ℝ} : ∀ L : List (Pt ℝ × Pt ℝ), (∀ e ∈ L, X < e.1.x ∧ X < e.2.x) →
    Integrable (fun q => (L.map fun e => edgeF X e.1 e.2 q).sum) ∧
      ∫ q, (L.map fun e => edgeF X e.1 e.2 q).sum = (L.map fun e => (e.2.y - e.1.y) * ((e.1.x + e.2.x) / 2 - X)).sum
  | [], _ => by simp
  | e :: L, h => by
    have h1 := edgeF_int (h e (by simp)).1 (h e (by simp)).2
    have h2 := edges_int L fun e he => h e (by simp [he])
    simp only [List.map_cons, List.sum_cons]
    exact ⟨h1.1.add h2.1, by rw [integral_add h1.1 h2.1, h1.2, h2.2]⟩

theorem crosses_comm (p a b : Pt ℝ) : Crosses p a b ↔ Crosses p b a := ⟨crosses_symm, crosses_symm⟩

/-- Right of `X` the two agree; left of it the line counts whenever it is at the height of the point. -/
theorem sense_edgeF {X : ℝ} {a b : Pt ℝ} (ha : X < a.x) (hb : X < b.x) (p : Pt ℝ) :
    ((sense p a b : ℤ) : ℝ) = edgeF X a b (p.y, p.x) + if p.x ≤ X then (if p.y < b.y then 1 else 0) - (if p.y < a.y then 1 else 0) else 0 := by
  classical
  have up : ∀ c d : Pt ℝ, X < c.x → X < d.x → c.y < d.y → (Crosses p c d ↔ p.y ∈ Ico c.y d.y ∧ p.x < xAt c d p.y) := by
    intro c d _ _ h
    unfold Crosses xAt
    refine and_congr_left fun _ => ?_
    constructor
    · intro h'
      constructor
      · by_contra hh; exact h' ⟨fun _ => by linarith, fun _ => by linarith⟩
      · by_contra hh; exact h' ⟨fun _ => by linarith, fun _ => by linarith⟩
    · rintro ⟨h1, h2⟩ hh
      linarith [hh.2 h2]
  rcases lt_trichotomy a.y b.y with h | h | h
  · unfold sense edgeF
    rw [if_pos h]
    simp only [up a b ha hb h]
    by_cases hy : p.y ∈ Ico a.y b.y
    · have hx := xAt_gt ha hb hy
      have k1 : a.y ≤ p.y := hy.1
      have k2 : p.y < b.y := hy.2
      by_cases h1 : p.x ≤ X
      · have h3 : p.x < xAt a b p.y := by linarith
        have h2 : (p.y, p.x) ∉ strip X a b := fun hm => absurd hm.2.1 (by simpa using h1)
        simp [hy, h3, h1, h2, k1, k2, not_lt.2 k1]
      · by_cases h3 : p.x < xAt a b p.y
        · have h2 : (p.y, p.x) ∈ strip X a b := ⟨hy, by simpa using h1, h3⟩
          simp [hy, h3, h1, h2, k1]
        · have h2 : (p.y, p.x) ∉ strip X a b := fun hm => h3 hm.2.2
          simp [h3, h1, h2]
    · have h2 : (p.y, p.x) ∉ strip X a b := fun hm => hy hm.1
      have k : (p.y < b.y) ↔ (p.y < a.y) := by
        constructor
        · intro h'; by_contra hh; exact hy ⟨not_lt.1 hh, h'⟩
        · intro h'; linarith
      simp [hy, h2, k]
  · have : ¬ Crosses p a b := fun hc => hc.1 (by rw [h])
    simp [sense, this, edgeF, h]
  · unfold sense edgeF
    rw [if_neg h.not_gt, if_pos h]
    simp only [crosses_comm p a b, up b a hb ha h]
    by_cases hy : p.y ∈ Ico b.y a.y
    · have hx := xAt_gt hb ha hy
      have k1 : b.y ≤ p.y := hy.1
      have k2 : p.y < a.y := hy.2
      by_cases h1 : p.x ≤ X
      · have h3 : p.x < xAt b a p.y := by linarith
        have h2 : (p.y, p.x) ∉ strip X b a := fun hm => absurd hm.2.1 (by simpa using h1)
        simp [hy, h3, h1, h2, k1, k2, not_lt.2 k1, not_le.2 k2]
      · by_cases h3 : p.x < xAt b a p.y
        · have h2 : (p.y, p.x) ∈ strip X b a := ⟨hy, by simpa using h1, h3⟩
          simp [hy, h3, h1, h2, not_le.2 k2]
        · have h2 : (p.y, p.x) ∉ strip X b a := fun hm => h3 hm.2.2
          simp [h3, h1, h2]
    · have h2 : (p.y, p.x) ∉ strip X b a := fun hm => hy hm.1
      have k : (p.y < b.y) ↔ (p.y < a.y) := by
        constructor
        · intro h'; linarith
        · intro h'; by_contra hh; exact hy ⟨not_lt.1 hh, h'⟩
      simp [hy, h2, k]

theorem exists_left (pts : List (Pt ℝ)) : ∃ X : ℝ, ∀ q ∈ pts, X < q.x := by
  induction pts with
  | nil => exact ⟨0, by simp⟩
  | cons a l ih =>
    obtain ⟨X, hX⟩ := ih
    refine ⟨min X (a.x - 1), fun q hq => ?_⟩
    rcases List.mem_cons.1 hq with rfl | hq
    · exact lt_of_le_of_lt (min_le_right _ _) (by linarith)
    · exact lt_of_le_of_lt (min_le_left _ _) (hX q hq)

theorem winding_edgeF {X : ℝ} {pts : List (Pt ℝ)} (hX : ∀ q ∈ pts, X < q.x) (q : ℝ × ℝ) :
    ((winding pts ⟨q.2, q.1⟩ : ℤ) : ℝ) = ((pts.zip (pts.rotate 1)).map fun e => edgeF X e.1 e.2 q).sum := by
  classical
  have hL : ∀ e ∈ pts.zip (pts.rotate 1), X < e.1.x ∧ X < e.2.x := fun e he =>
    ⟨hX _ (List.of_mem_zip he).1, hX _ (by simpa using (List.of_mem_zip he).2)⟩
  have key : ∀ L : List (Pt ℝ × Pt ℝ), (∀ e ∈ L, X < e.1.x ∧ X < e.2.x) →
      (((L.map fun e => sense ⟨q.2, q.1⟩ e.1 e.2).sum : ℤ) : ℝ) = (L.map fun e => edgeF X e.1 e.2 q).sum +
        (L.map fun e => if q.2 ≤ X then (if q.1 < e.2.y then (1 : ℝ) else 0) - (if q.1 < e.1.y then 1 else 0) else 0).sum := by
    intro L
    induction L with
    | nil => simp
    | cons e L ih =>
      intro h
      have h1 := sense_edgeF (h e (by simp)).1 (h e (by simp)).2 ⟨q.2, q.1⟩
      simp only [List.map_cons, List.sum_cons]
      push_cast at ih ⊢
      rw [ih fun e he => h e (by simp [he]), h1]
      ring
  rw [winding, key _ hL]
  have : ((pts.zip (pts.rotate 1)).map fun e => if q.2 ≤ X then (if q.1 < e.2.y then (1 : ℝ) else 0) - (if q.1 < e.1.y then 1 else 0) else 0).sum = 0 := by
    by_cases hq : q.2 ≤ X
    · simp only [if_pos hq]
      have h1 := sum_zipWith_cyc (K := ℝ) (fun a b => (if q.1 < b.y then (1 : ℝ) else 0) - (if q.1 < a.y then 1 else 0)) (fun _ _ => 0)
        (fun a => -(if q.1 < a.y then (1 : ℝ) else 0)) (fun a b => by ring) pts
      rw [← List.map_uncurry_zip_eq_zipWith, ← List.map_uncurry_zip_eq_zipWith] at h1
      refine (Eq.trans ?_ h1).trans ?_
      · rfl
      · exact (by simp : ∀ L : List (Pt ℝ × Pt ℝ), (L.map fun _ => (0 : ℝ)).sum = 0) _
    · simp [if_neg hq]
  rw [this, add_zero]

theorem winding_int (pts : List (Pt ℝ)) : Integrable (fun q : ℝ × ℝ => ((winding pts ⟨q.2, q.1⟩ : ℤ) : ℝ)) ∧
    ∫ q : ℝ × ℝ, ((winding pts ⟨q.2, q.1⟩ : ℤ) : ℝ) = polygonArea pts := by
  obtain ⟨X, hX⟩ := exists_left pts
  simp only [winding_edgeF hX]
  have h := edges_int (X := X) (pts.zip (pts.rotate 1)) fun e he => ⟨hX _ (List.of_mem_zip he).1, hX _ (by simpa using (List.of_mem_zip he).2)⟩
  refine ⟨h.1, h.2.trans ?_⟩
  rw [polygonArea_eq]
  have h1 := sum_zipWith_cyc (K := ℝ) (fun a b => (b.y - a.y) * ((a.x + b.x) / 2 - X)) (fun a b => 1 / 2 * crs a b)
    (fun a => -(a.x * a.y / 2) + a.y * X) (fun a b => by simp only [crs]; ring) pts
  rw [sum_zipWith_mul] at h1
  rw [← List.map_uncurry_zip_eq_zipWith] at h1
  exact (Eq.trans rfl h1).trans (by ring)

theorem winding_odd (pts : List (Pt ℝ)) (p : Pt ℝ) : Covers pts p ↔ Odd (winding pts p) := by
  classical
  rw [covers_iff, ← ZMod.intCast_eq_one_iff_odd]
  have e : cyc (crossing p) pts = ((pts.zip (pts.rotate 1)).map fun e => crossing p e.1 e.2).sum := by
    rw [cyc, ← List.map_uncurry_zip_eq_zipWith]; rfl
  rw [e, winding]
  generalize pts.zip (pts.rotate 1) = L
  have : ((L.map fun e => sense p e.1 e.2).sum : ZMod 2) = (L.map fun e => crossing p e.1 e.2).sum := by
    induction L with
    | nil => simp
    | cons e L ih =>
      simp only [List.map_cons, List.sum_cons]
      push_cast at ih ⊢
      rw [ih]
      congr 1
      unfold sense crossing
      split
      · split <;> decide
      · simp
  rw [← this]

end X7.Elem
