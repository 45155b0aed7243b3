import Verif.Props.FillAreaMove

/-!
The area of a rectangle with round corners: what is at most `k` away from a rectangle.
-/

open MeasureTheory Set

noncomputable section

namespace X7.Elem

/-- A line with the part between `-d` and `d` drawn together into a point. -/
def shrink (d x : ℝ) : ℝ := x - max (-d) (min x d)

theorem shrink_low {d x : ℝ} (hd : 0 ≤ d) (h : x ≤ -d) : shrink d x = x + d := by
  rw [shrink, min_eq_left (by linarith), max_eq_left h]; ring

theorem shrink_mid {d x : ℝ} (h : -d ≤ x) (h' : x ≤ d) : shrink d x = 0 := by
  rw [shrink, min_eq_left h', max_eq_right h]; ring

theorem shrink_high {d x : ℝ} (hd : 0 ≤ d) (h : d ≤ x) : shrink d x = x - d := by
  rw [shrink, min_eq_right h, max_eq_right (by linarith)]

theorem shrink_meas (d : ℝ) : Measurable (shrink d) := by
  unfold shrink
  fun_prop

/-- The integral along the line, before and after the drawing together. -/
theorem lintegral_shrink {d : ℝ} (hd : 0 ≤ d) (G : ℝ → ENNReal) :
    ∫⁻ x, G (shrink d x) = (∫⁻ x, G x) + ENNReal.ofReal (2 * d) * G 0 := by
  have s1 : ∫⁻ x, G (shrink d x) = (∫⁻ x in Iic (-d), G (shrink d x)) + ((∫⁻ x in Ioc (-d) d, G (shrink d x)) + ∫⁻ x in Ioi d, G (shrink d x)) := by
    rw [← lintegral_union measurableSet_Ioi (by rw [Set.disjoint_left]; intro x hx hx'; exact absurd hx.2 (not_le.2 hx')),
      Ioc_union_Ioi_eq_Ioi (by linarith), ← lintegral_add_compl _ (measurableSet_Iic (a := -d)), compl_Iic]
  have s2 : ∫⁻ x, G x = (∫⁻ x in Iic 0, G x) + ∫⁻ x in Ioi 0, G x := by
    rw [← lintegral_add_compl _ (measurableSet_Iic (a := (0 : ℝ))), compl_Iic]
  have e1 : ∫⁻ x in Iic (-d), G (shrink d x) = ∫⁻ x in Iic 0, G x := by
    rw [setLIntegral_congr_fun measurableSet_Iic (g := fun x => G (x + d)) (fun x hx => by rw [shrink_low hd hx]),
      ← (measurePreserving_add_right volume d).setLIntegral_comp_preimage_emb (measurableEmbedding_addRight d) G (Iic 0)]
    congr 2
    ext x
    simp only [mem_Iic, mem_preimage]
    constructor <;> intro <;> linarith
  have e2 : ∫⁻ x in Ioi d, G (shrink d x) = ∫⁻ x in Ioi 0, G x := by
    rw [setLIntegral_congr_fun measurableSet_Ioi (g := fun x => G (x + -d)) (fun x hx => by rw [shrink_high hd (le_of_lt hx), sub_eq_add_neg]),
      ← (measurePreserving_add_right volume (-d)).setLIntegral_comp_preimage_emb (measurableEmbedding_addRight (-d)) G (Ioi 0)]
    congr 2
    ext x
    simp only [mem_Ioi, mem_preimage]
    constructor <;> intro <;> linarith
  have e3 : ∫⁻ x in Ioc (-d) d, G (shrink d x) = ENNReal.ofReal (2 * d) * G 0 := by
    rw [setLIntegral_congr_fun measurableSet_Ioc (g := fun _ => G 0) (fun x hx => by rw [shrink_mid hx.1.le hx.2]), setLIntegral_const, Real.volume_Ioc,
      mul_comm]
    congr 2
    ring
  rw [s1, e1, e2, e3, s2]
  ring

theorem volume_shrink_fst {d : ℝ} (hd : 0 ≤ d) {S : Set (ℝ × ℝ)} (hS : MeasurableSet S) :
    volume {q : ℝ × ℝ | (shrink d q.1, q.2) ∈ S} = volume S + ENNReal.ofReal (2 * d) * volume {y | ((0 : ℝ), y) ∈ S} := by
  have hS' : MeasurableSet {q : ℝ × ℝ | (shrink d q.1, q.2) ∈ S} := by
    have : Measurable fun q : ℝ × ℝ => (shrink d q.1, q.2) := ((shrink_meas d).comp measurable_fst).prodMk measurable_snd
    exact this hS
  rw [Measure.volume_eq_prod, Measure.prod_apply hS', Measure.prod_apply hS]
  exact lintegral_shrink hd fun x => volume (Prod.mk x ⁻¹' S)

theorem volume_shrink_snd {d : ℝ} (hd : 0 ≤ d) {S : Set (ℝ × ℝ)} (hS : MeasurableSet S) :
    volume {q : ℝ × ℝ | (q.1, shrink d q.2) ∈ S} = volume S + ENNReal.ofReal (2 * d) * volume {x | (x, (0 : ℝ)) ∈ S} := by
  have hS' : MeasurableSet {q : ℝ × ℝ | (q.1, shrink d q.2) ∈ S} := by
    have : Measurable fun q : ℝ × ℝ => (q.1, shrink d q.2) := measurable_fst.prodMk ((shrink_meas d).comp measurable_snd)
    exact this hS
  rw [Measure.volume_eq_prod, Measure.prod_apply_symm hS', Measure.prod_apply_symm hS]
  exact lintegral_shrink hd fun y => volume ((fun x => (x, y)) ⁻¹' S)

/-- The area of what is less than `k` away from a rectangle of half sizes `a` and `b`. -/
theorem rounded_volume {a b k : ℝ} (ha : 0 ≤ a) (hb : 0 ≤ b) (hk : 0 < k) :
    volume {q : ℝ × ℝ | shrink a q.1 ^ 2 + shrink b q.2 ^ 2 < k ^ 2} = ENNReal.ofReal (4 * a * b + 4 * k * (a + b) + Real.pi * k ^ 2) := by
  have hD : MeasurableSet {q : ℝ × ℝ | q.1 ^ 2 + q.2 ^ 2 < k ^ 2} := (isOpen_lt (by fun_prop) continuous_const).measurableSet
  have hT : MeasurableSet {q : ℝ × ℝ | q.1 ^ 2 + shrink b q.2 ^ 2 < k ^ 2} := by
    have : Measurable fun q : ℝ × ℝ => (q.1, shrink b q.2) := measurable_fst.prodMk ((shrink_meas b).comp measurable_snd)
    exact this hD
  have h1 := volume_shrink_snd hb hD
  have h2 := volume_shrink_fst ha hT
  simp only [mem_ofPred_eq] at h1 h2
  have i1 : {x : ℝ | x ^ 2 + 0 ^ 2 < k ^ 2} = Ioo (-k) k := by
    ext x
    rw [mem_ofPred_eq, mem_Ioo, ← abs_lt, show x ^ 2 + 0 ^ 2 = x ^ 2 by ring, sq_lt_sq, abs_of_pos hk]
  have i2 : {y : ℝ | 0 ^ 2 + shrink b y ^ 2 < k ^ 2} = Ioo (-(b + k)) (b + k) := by
    ext y
    rw [mem_ofPred_eq, mem_Ioo, show (0 : ℝ) ^ 2 + shrink b y ^ 2 = shrink b y ^ 2 by ring, sq_lt_sq, abs_of_pos hk, abs_lt]
    rcases le_total y (-b) with h | h
    · rw [shrink_low hb h]; constructor <;> intro ⟨_, _⟩ <;> constructor <;> linarith
    rcases le_total y b with h' | h'
    · rw [shrink_mid h h']; constructor <;> intro ⟨_, _⟩ <;> constructor <;> linarith
    · rw [shrink_high hb h']; constructor <;> intro ⟨_, _⟩ <;> constructor <;> linarith
  rw [i1, Real.volume_Ioo, disc_area k hk.le, ← ENNReal.ofReal_mul (by positivity), ← ENNReal.ofReal_add (by positivity) (by nlinarith [mul_nonneg hb hk.le])] at h1
  rw [h1, i2, Real.volume_Ioo, ← ENNReal.ofReal_mul (by positivity),
    ← ENNReal.ofReal_add (by nlinarith [mul_nonneg hb hk.le, mul_pos (pow_pos hk 2) Real.pi_pos]) (by nlinarith [mul_nonneg ha hk.le, mul_nonneg ha hb])] at h2
  rw [h2]
  congr 1
  ring

end X7.Elem
