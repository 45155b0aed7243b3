import Verif.Spec.FillMove
import Verif.Lemmas.Fill

noncomputable section

namespace X7.Elem

/-- Crossing, by the sign of the cross product. -/
theorem crosses_iff (p a b : Pt ℝ) : Crosses p a b ↔ ¬ (0 < a.y - p.y ↔ 0 < b.y - p.y) ∧
    0 < ((a.x - p.x) * (b.y - p.y) - (a.y - p.y) * (b.x - p.x)) * ((b.y - p.y) - (a.y - p.y)) := by
  simp only [Crosses, sub_pos]
  refine and_congr_right fun h => ?_
  have hne : b.y - a.y ≠ 0 := by
    intro h0
    apply h
    rw [show b.y = a.y by linarith]
  rw [← sub_pos (b := p.x), ← mul_pos_iff_of_pos_right (show 0 < (b.y - a.y) ^ 2 by positivity)]
  have e : (a.x + (p.y - a.y) / (b.y - a.y) * (b.x - a.x) - p.x) * (b.y - a.y) ^ 2 =
      ((a.x - p.x) * (b.y - p.y) - (a.y - p.y) * (b.x - p.x)) * ((b.y - p.y) - (a.y - p.y)) := by
    field_simp
    ring
  rw [e]

/-- `p` is on the line from `a` to `b`. -/
def OnLineAB (p a b : Pt ℝ) : Prop := ∃ v, 0 ≤ v ∧ v ≤ 1 ∧ p = ⟨a.x + v * (b.x - a.x), a.y + v * (b.y - a.y)⟩

/-- If the heights are on different sides and the cross product is zero then the point is on the line. -/
theorem on_of_y {p a b : Pt ℝ} (h : ¬ (0 < a.y - p.y ↔ 0 < b.y - p.y))
    (hd : (a.x - p.x) * (b.y - p.y) - (a.y - p.y) * (b.x - p.x) = 0) : OnLineAB p a b := by
  have hne : b.y - a.y ≠ 0 := by
    intro h0
    apply h
    rw [show b.y = a.y by linarith]
  refine ⟨(p.y - a.y) / (b.y - a.y), ?_, ?_, ?_⟩
  · rcases lt_or_gt_of_ne hne with h0 | h0
    · apply div_nonneg_of_nonpos _ h0.le
      by_contra hc
      exact h ⟨fun _ => by linarith, fun _ => by linarith⟩
    · apply div_nonneg _ h0.le
      by_contra hc
      exact h ⟨fun _ => by linarith, fun _ => by linarith⟩
  · rcases lt_or_gt_of_ne hne with h0 | h0
    · rw [div_le_one_of_neg h0]
      by_contra hc
      exact h ⟨fun _ => by linarith, fun _ => by linarith⟩
    · rw [div_le_one h0]
      by_contra hc
      exact h ⟨fun _ => by linarith, fun _ => by linarith⟩
  · ext
    · simp only
      field_simp
      linarith
    · simp only
      field_simp
      ring

theorem z2 (P Q R S : Prop) [Decidable P] [Decidable Q] [Decidable R] [Decidable S] (h : (P ↔ Q) ↔ (R ↔ S)) :
    (if P then (1 : ZMod 2) else 0) = (if Q then 1 else 0) + ((if R then 1 else 0) + if S then 1 else 0) := by
  by_cases hP : P <;> by_cases hQ : Q <;> by_cases hR : R <;> by_cases hS : S <;> simp_all <;> decide

theorem zipWith_bound (h : Pt ℝ → ZMod 2) : ∀ l l' : List (Pt ℝ), l.length = l'.length →
    (List.zipWith (fun a b => h a + h b) l l').sum = (l.map h).sum + (l'.map h).sum
  | [], [], _ => by simp
  | a :: l, b :: l', hl => by
    rw [List.zipWith_cons_cons, List.sum_cons, zipWith_bound h l l' (by simpa using hl), List.map_cons, List.map_cons, List.sum_cons, List.sum_cons]
    abel
  | [], _ :: _, h => by simp at h
  | _ :: _, [], h => by simp at h

/-- A change that depends on the corners only cancels around the polygon. -/
theorem cyc_bound (h : Pt ℝ → ZMod 2) (l : List (Pt ℝ)) : cyc (fun a b => h a + h b) l = 0 := by
  rw [cyc, zipWith_bound h l _ (by simp)]
  have : ((l.rotate 1).map h).sum = (l.map h).sum := ((List.rotate_perm l 1).map h).sum_eq
  rw [this]
  have h2 : ∀ z : ZMod 2, z + z = 0 := by decide
  exact h2 _

theorem cyc_change {Φ Ψ : Pt ℝ → Pt ℝ → ZMod 2} (h : Pt ℝ → ZMod 2) (l : List (Pt ℝ))
    (hc : ∀ e ∈ l.zip (l.rotate 1), Φ e.1 e.2 = Ψ e.1 e.2 + (h e.1 + h e.2)) : cyc Φ l = cyc Ψ l := by
  have e1 : ∀ X : Pt ℝ → Pt ℝ → ZMod 2, cyc X l = ((l.zip (l.rotate 1)).map fun e => X e.1 e.2).sum := by
    intro X
    rw [cyc, ← List.map_uncurry_zip_eq_zipWith]; rfl
  have e2 := cyc_bound h l
  rw [e1] at e2 ⊢
  rw [e1 Ψ, List.map_congr_left hc, List.sum_map_add, e2, add_zero]

theorem cyc_map (Φ : Pt ℝ → Pt ℝ → ZMod 2) (T : Pt ℝ → Pt ℝ) (l : List (Pt ℝ)) : cyc Φ (l.map T) = cyc (fun a b => Φ (T a) (T b)) l := by
  rw [cyc, cyc, ← List.map_rotate, List.zipWith_map]

/-- Covering is kept by a map that changes crossings by something that depends on the corners only. -/
theorem covers_map {T : Pt ℝ → Pt ℝ} {p : Pt ℝ} (R : Pt ℝ → Prop) (hR : ∀ a b, ¬ OnLineAB p a b → ((Crosses (T p) (T a) (T b) ↔ Crosses p a b) ↔ (R a ↔ R b)))
    {pts : List (Pt ℝ)} (hp : ¬ OnSide pts p) : Covers (pts.map T) (T p) ↔ Covers pts p := by
  classical
  rw [covers_iff, covers_iff, cyc_map, cyc_change (Ψ := crossing p) fun a => if R a then 1 else 0]
  intro e he
  exact z2 _ _ _ _ (hR _ _ fun ⟨v, v0, v1, hv⟩ => hp ⟨e, he, v, v0, v1, hv⟩)

/-! ### The maps -/

/-- `x' = k x + l y + c`, `y' = n y + f`. -/
def tri (k l c n f : ℝ) (p : Pt ℝ) : Pt ℝ := ⟨k * p.x + l * p.y + c, n * p.y + f⟩

/-- `x' = y`, `y' = x`. -/
def swap (p : Pt ℝ) : Pt ℝ := ⟨p.y, p.x⟩

theorem tri_pos {k l c n f : ℝ} (hk : 0 < k) (hn : 0 < n) (p a b : Pt ℝ) : Crosses (tri k l c n f p) (tri k l c n f a) (tri k l c n f b) ↔ Crosses p a b := by
  rw [crosses_iff, crosses_iff]
  simp only [tri]
  have e1 : ∀ q : Pt ℝ, n * q.y + f - (n * p.y + f) = n * (q.y - p.y) := fun q => by ring
  have e2 : ∀ q : Pt ℝ, 0 < n * (q.y - p.y) ↔ 0 < q.y - p.y := fun q => mul_pos_iff_of_pos_left hn
  have e3 : ∀ q : Pt ℝ, k * q.x + l * q.y + c - (k * p.x + l * p.y + c) = k * (q.x - p.x) + l * (q.y - p.y) := fun q => by ring
  simp only [e1, e2, e3]
  refine and_congr_right fun _ => ?_
  rw [show ((k * (a.x - p.x) + l * (a.y - p.y)) * (n * (b.y - p.y)) - n * (a.y - p.y) * (k * (b.x - p.x) + l * (b.y - p.y))) *
      (n * (b.y - p.y) - n * (a.y - p.y)) = (k * n ^ 2) *
      (((a.x - p.x) * (b.y - p.y) - (a.y - p.y) * (b.x - p.x)) * ((b.y - p.y) - (a.y - p.y))) by ring]
  exact mul_pos_iff_of_pos_left (by positivity)

theorem flip_x (p a b : Pt ℝ) (hp : ¬ OnLineAB p a b) :
    (Crosses (tri (-1) 0 0 1 0 p) (tri (-1) 0 0 1 0 a) (tri (-1) 0 0 1 0 b) ↔ Crosses p a b) ↔ (0 < a.y - p.y ↔ 0 < b.y - p.y) := by
  rw [crosses_iff, crosses_iff]
  simp only [tri]
  rw [show ((-1 * a.x + 0 * a.y + 0 - (-1 * p.x + 0 * p.y + 0)) * (1 * b.y + 0 - (1 * p.y + 0)) -
      (1 * a.y + 0 - (1 * p.y + 0)) * (-1 * b.x + 0 * b.y + 0 - (-1 * p.x + 0 * p.y + 0))) * (1 * b.y + 0 - (1 * p.y + 0) - (1 * a.y + 0 - (1 * p.y + 0))) =
      -(((a.x - p.x) * (b.y - p.y) - (a.y - p.y) * (b.x - p.x)) * ((b.y - p.y) - (a.y - p.y))) by ring]
  simp only [one_mul, add_zero]
  by_cases h : 0 < a.y - p.y ↔ 0 < b.y - p.y
  · simp [h]
  · have hD : ((a.x - p.x) * (b.y - p.y) - (a.y - p.y) * (b.x - p.x)) * ((b.y - p.y) - (a.y - p.y)) ≠ 0 := by
      intro h0
      rcases mul_eq_zero.1 h0 with h0 | h0
      · exact hp (on_of_y h h0)
      · apply h
        rw [show b.y - p.y = a.y - p.y by linarith]
    generalize ((a.x - p.x) * (b.y - p.y) - (a.y - p.y) * (b.x - p.x)) * ((b.y - p.y) - (a.y - p.y)) = D at hD
    simp only [h, not_false_eq_true, true_and, iff_false]
    intro hh
    rcases lt_or_gt_of_ne hD with h1 | h1
    · have := hh.1 (by linarith); linarith
    · have := hh.2 h1; linarith

theorem flip_y (p a b : Pt ℝ) (hp : ¬ OnLineAB p a b) :
    (Crosses (tri 1 0 0 (-1) 0 p) (tri 1 0 0 (-1) 0 a) (tri 1 0 0 (-1) 0 b) ↔ Crosses p a b) ↔
      ((a.y - p.y = 0 ∧ 0 < a.x - p.x) ↔ (b.y - p.y = 0 ∧ 0 < b.x - p.x)) := by
  rw [crosses_iff, crosses_iff]
  simp only [tri]
  rw [show ((1 * a.x + 0 * a.y + 0 - (1 * p.x + 0 * p.y + 0)) * (-1 * b.y + 0 - (-1 * p.y + 0)) -
      (-1 * a.y + 0 - (-1 * p.y + 0)) * (1 * b.x + 0 * b.y + 0 - (1 * p.x + 0 * p.y + 0))) * (-1 * b.y + 0 - (-1 * p.y + 0) - (-1 * a.y + 0 - (-1 * p.y + 0))) =
      (((a.x - p.x) * (b.y - p.y) - (a.y - p.y) * (b.x - p.x)) * ((b.y - p.y) - (a.y - p.y))) by ring,
    show -1 * a.y + 0 - (-1 * p.y + 0) = -(a.y - p.y) by ring, show -1 * b.y + 0 - (-1 * p.y + 0) = -(b.y - p.y) by ring]
  have hon : a.y - p.y = 0 → b.y - p.y = 0 → (0 < a.x - p.x ↔ 0 < b.x - p.x) := by
    intro ha hb
    by_contra hc
    apply hp
    have hne : b.x - a.x ≠ 0 := by
      intro h0
      apply hc
      rw [show b.x = a.x by linarith]
    refine ⟨(p.x - a.x) / (b.x - a.x), ?_, ?_, ?_⟩
    · rcases lt_or_gt_of_ne hne with h0 | h0
      · apply div_nonneg_of_nonpos _ h0.le
        by_contra hcc
        exact hc ⟨fun _ => by linarith, fun _ => by linarith⟩
      · apply div_nonneg _ h0.le
        by_contra hcc
        exact hc ⟨fun _ => by linarith, fun _ => by linarith⟩
    · rcases lt_or_gt_of_ne hne with h0 | h0
      · rw [div_le_one_of_neg h0]
        by_contra hcc
        exact hc ⟨fun _ => by linarith, fun _ => by linarith⟩
      · rw [div_le_one h0]
        by_contra hcc
        exact hc ⟨fun _ => by linarith, fun _ => by linarith⟩
    · ext
      · simp only; field_simp; ring
      · simp only
        rw [show b.y - a.y = 0 by linarith]; linarith
  generalize a.x - p.x = ax at *
  generalize a.y - p.y = ay at *
  generalize b.x - p.x = bx at *
  generalize b.y - p.y = by' at *
  rcases lt_trichotomy ay 0 with ha | ha | ha <;> rcases lt_trichotomy by' 0 with hb | hb | hb
  · simp [ha, hb, ha.le, hb.le, not_lt.2 ha.le, not_lt.2 hb.le, ha.ne, hb.ne]
  · subst hb
    have e : 0 < (ax * 0 - ay * bx) * (0 - ay) ↔ 0 < bx := by
      rw [show (ax * 0 - ay * bx) * (0 - ay) = ay ^ 2 * bx by ring]
      exact mul_pos_iff_of_pos_left (by have := ha.ne; positivity)
    simp only [e]
    simp [ha, ha.ne, not_lt.2 ha.le]
  · simp [ha, hb, ha.le, hb.le, not_lt.2 ha.le, not_lt.2 hb.le, ha.ne, hb.ne']
  · subst ha
    have e : 0 < (ax * by' - 0 * bx) * (by' - 0) ↔ 0 < ax := by
      rw [show (ax * by' - 0 * bx) * (by' - 0) = by' ^ 2 * ax by ring]
      exact mul_pos_iff_of_pos_left (by have := hb.ne; positivity)
    simp only [e]
    simp [hb, hb.ne, not_lt.2 hb.le]
  · subst ha; subst hb
    simp [hon rfl rfl]
  · subst ha
    have e : 0 < (ax * by' - 0 * bx) * (by' - 0) ↔ 0 < ax := by
      rw [show (ax * by' - 0 * bx) * (by' - 0) = by' ^ 2 * ax by ring]
      exact mul_pos_iff_of_pos_left (by have := hb.ne'; positivity)
    simp [hb, hb.ne', hb.le, not_lt.2 hb.le, e]
  · simp [ha, hb, ha.le, hb.le, not_lt.2 ha.le, not_lt.2 hb.le, ha.ne', hb.ne]
  · subst hb
    have e : 0 < (ax * 0 - ay * bx) * (0 - ay) ↔ 0 < bx := by
      rw [show (ax * 0 - ay * bx) * (0 - ay) = ay ^ 2 * bx by ring]
      exact mul_pos_iff_of_pos_left (by have := ha.ne'; positivity)
    simp [ha, ha.ne', not_lt.2 ha.le, e]
  · simp [ha, hb, ha.le, hb.le, not_lt.2 ha.le, not_lt.2 hb.le, ha.ne', hb.ne']

theorem sg1 {u v k : ℝ} (h : k < 0) : 0 < (u - v) * k ↔ 0 < v - u := by
  constructor
  · intro h1
    by_contra h2
    nlinarith
  · intro h1
    nlinarith

theorem sg2 {u v k : ℝ} (h : k < 0) : 0 < (u - v) * k ↔ u - v < 0 := by
  rw [sg1 h]
  constructor <;> intro <;> linarith

theorem sg3 {u : ℝ} (h : u ≠ 0) : ¬ (0 < u ↔ u < 0) := by
  intro hh
  rcases lt_or_gt_of_ne h with h1 | h1
  · linarith [hh.2 h1]
  · linarith [hh.1 h1]

theorem sg4 {u v k : ℝ} (h : 0 < k) : 0 < (u - v) * k ↔ v - u < 0 := by
  rw [mul_pos_iff_of_pos_right h]
  constructor <;> intro <;> linarith

theorem flip_swap (p a b : Pt ℝ) (hp : ¬ OnLineAB p a b) :
    (Crosses (swap p) (swap a) (swap b) ↔ Crosses p a b) ↔
      ((0 < a.x - p.x ∧ 0 < a.y - p.y) ↔ (0 < b.x - p.x ∧ 0 < b.y - p.y)) := by
  rw [crosses_iff, crosses_iff]
  simp only [swap]
  have hon : ¬ (0 < a.y - p.y ↔ 0 < b.y - p.y) → (a.x - p.x) * (b.y - p.y) - (a.y - p.y) * (b.x - p.x) ≠ 0 := fun h h0 => hp (on_of_y h h0)
  generalize a.x - p.x = ax at *
  generalize a.y - p.y = ay at *
  generalize b.x - p.x = bx at *
  generalize b.y - p.y = by' at *
  by_cases h1 : 0 < ax <;> by_cases h2 : 0 < ay <;> by_cases h3 : 0 < bx <;> by_cases h4 : 0 < by' <;>
    simp only [h1, h2, h3, h4, iff_self, iff_true, iff_false, true_iff, false_iff, not_true, not_false_eq_true, true_and, false_and, and_true, and_false,
      and_self] at hon ⊢
  · exact not_not.2 (mul_pos_of_neg_of_neg (by nlinarith [mul_pos h2 h3, mul_nonneg h1.le (by linarith : 0 ≤ -by')]) (by linarith))
  · exact not_not.2 (mul_pos_of_neg_of_neg (by nlinarith [mul_pos h1 h4, mul_nonneg h2.le (by linarith : 0 ≤ -bx)]) (by linarith))
  · rw [sg1 (by linarith : bx - ax < 0), sg2 (by linarith : by' - ay < 0)]
    exact sg3 (hon trivial)
  · exact not_not.2 (mul_pos (by nlinarith [mul_pos h1 h4, mul_nonneg h3.le (by linarith : 0 ≤ -ay)]) (by linarith))
  · rw [sg1 (by linarith : bx - ax < 0), mul_pos_iff_of_pos_right (by linarith : 0 < by' - ay)]
  · exact not_lt.2 (mul_nonpos_of_nonneg_of_nonpos (by nlinarith [mul_nonneg (by linarith : 0 ≤ -ay) (by linarith : 0 ≤ -bx), mul_nonneg h1.le (by linarith : 0 ≤ -by')]) (by linarith))
  · exact not_not.2 (mul_pos (by nlinarith [mul_pos h2 h3, mul_nonneg h4.le (by linarith : 0 ≤ -ax)]) (by linarith))
  · rw [sg4 (by linarith : 0 < bx - ax), sg2 (by linarith : by' - ay < 0)]
  · exact not_lt.2 (mul_nonpos_of_nonneg_of_nonpos (by nlinarith [mul_nonneg (by linarith : 0 ≤ -ax) (by linarith : 0 ≤ -by'), mul_nonneg h2.le (by linarith : 0 ≤ -bx)]) (by linarith))
  · rw [sg4 (by linarith : 0 < bx - ax), mul_pos_iff_of_pos_right (by linarith : 0 < by' - ay)]
    intro h
    exact sg3 (hon trivial) h.symm
  · exact not_lt.2 (mul_nonpos_of_nonpos_of_nonneg (by nlinarith [mul_nonneg (by linarith : 0 ≤ -ax) (by linarith : 0 ≤ -by'), mul_nonneg h3.le (by linarith : 0 ≤ -ay)]) (by linarith))
  · exact not_lt.2 (mul_nonpos_of_nonpos_of_nonneg (by nlinarith [mul_nonneg (by linarith : 0 ≤ -ay) (by linarith : 0 ≤ -bx), mul_nonneg h4.le (by linarith : 0 ≤ -ax)]) (by linarith))

/-! ### Any transform that does not flatten -/

/-- The map keeps what is on a side and what is covered. -/
def Carries (T : Pt ℝ → Pt ℝ) : Prop := ∀ pts p, ¬ OnSide pts p → ¬ OnSide (pts.map T) (T p) ∧ (Covers (pts.map T) (T p) ↔ Covers pts p)

theorem Carries.comp {S T : Pt ℝ → Pt ℝ} (hS : Carries S) (hT : Carries T) : Carries (S ∘ T) := by
  intro pts p hp
  obtain ⟨h1, h2⟩ := hT pts p hp
  obtain ⟨h3, h4⟩ := hS _ _ h1
  rw [List.map_map] at h3 h4
  exact ⟨h3, h4.trans h2⟩

theorem onSide_apply {m : Mat3 ℝ} (hm : Solid m) {pts : List (Pt ℝ)} {p : Pt ℝ} : OnSide (pts.map m.apply) (m.apply p) ↔ OnSide pts p := by
  have hz : (pts.map m.apply).zip ((pts.map m.apply).rotate 1) = (pts.zip (pts.rotate 1)).map (Prod.map m.apply m.apply) := by
    rw [← List.map_rotate, List.zip_map]
  simp only [OnSide, hz, List.mem_map, exists_exists_and_eq_and, Prod.map_fst, Prod.map_snd]
  refine exists_congr fun e => and_congr_right fun _ => exists_congr fun v => and_congr_right fun _ => and_congr_right fun _ => ?_
  simp only [Mat3.apply, Pt.mk.injEq]
  constructor
  · rintro ⟨h1, h2⟩
    ext
    · apply mul_left_cancel₀ hm
      simp only
      linear_combination m.e * h1 - m.b * h2
    · apply mul_left_cancel₀ hm
      simp only
      linear_combination m.a * h2 - m.d * h1
  · intro h
    rw [Pt.ext_iff] at h
    simp only at h
    rw [h.1, h.2]
    constructor <;> ring

theorem carries_of {m : Mat3 ℝ} (hm : Solid m) {p : Pt ℝ → Pt ℝ → Prop}
    (h : ∀ q a b, ¬ OnLineAB q a b → ((Crosses (m.apply q) (m.apply a) (m.apply b) ↔ Crosses q a b) ↔ (p q a ↔ p q b))) : Carries m.apply :=
  fun _ q hq => ⟨fun hc => hq ((onSide_apply hm).1 hc), covers_map (p q) (h q) hq⟩

theorem tri_eq (k l c n f : ℝ) : tri k l c n f = Mat3.apply ⟨k, l, c, 0, n, f, 0, 0, 1⟩ := by
  funext p
  simp [tri, Mat3.apply]

theorem swap_eq : swap = Mat3.apply ⟨0, 1, 0, 1, 0, 0, 0, 0, 1⟩ := by
  funext p
  simp [swap, Mat3.apply]

theorem carries_swap : Carries swap := by
  rw [swap_eq]
  refine carries_of (by simp [Solid]) (p := fun q a => 0 < a.x - q.x ∧ 0 < a.y - q.y) fun q a b h => ?_
  rw [← swap_eq]
  exact flip_swap q a b h

theorem carries_flip_x : Carries (tri (-1) 0 0 1 0) := by
  rw [tri_eq]
  refine carries_of (by simp [Solid]) (p := fun q a => 0 < a.y - q.y) fun q a b h => ?_
  rw [← tri_eq]
  exact flip_x q a b h

theorem carries_flip_y : Carries (tri 1 0 0 (-1) 0) := by
  rw [tri_eq]
  refine carries_of (by simp [Solid]) (p := fun q a => a.y - q.y = 0 ∧ 0 < a.x - q.x) fun q a b h => ?_
  rw [← tri_eq]
  exact flip_y q a b h

theorem carries_tri_pos {k l c n f : ℝ} (hk : 0 < k) (hn : 0 < n) : Carries (tri k l c n f) := by
  rw [tri_eq]
  refine carries_of (by simp [Solid, hk.ne', hn.ne']) (p := fun _ _ => True) fun q a b h => ?_
  rw [← tri_eq]
  simp [tri_pos hk hn q a b]

theorem carries_tri_pos_y {k l c n f : ℝ} (hk : k ≠ 0) (hn : 0 < n) : Carries (tri k l c n f) := by
  rcases lt_or_gt_of_ne hk with h | h
  · have e : tri k l c n f = tri (-k) l c n f ∘ tri (-1) 0 0 1 0 := by
      funext p
      simp [tri]
    rw [e]
    exact (carries_tri_pos (by linarith) hn).comp carries_flip_x
  · exact carries_tri_pos h hn

theorem carries_tri {k l c n f : ℝ} (hk : k ≠ 0) (hn : n ≠ 0) : Carries (tri k l c n f) := by
  rcases lt_or_gt_of_ne hn with h | h
  · have e : tri k l c n f = tri k (-l) c (-n) f ∘ tri 1 0 0 (-1) 0 := by
      funext p
      simp [tri]
    rw [e]
    exact (carries_tri_pos_y hk (by linarith)).comp carries_flip_y
  · exact carries_tri_pos_y hk h

theorem carries_apply {m : Mat3 ℝ} (hm : Solid m) : Carries m.apply := by
  unfold Solid at hm
  by_cases hd : m.d = 0
  · have e : m.apply = tri m.a m.b m.c m.e m.f := by
      funext p
      simp [tri, Mat3.apply, hd]
    rw [e]
    rw [hd, mul_zero, sub_zero] at hm
    exact carries_tri (left_ne_zero_of_mul hm) (right_ne_zero_of_mul hm)
  · have e : m.apply = tri (-(m.a * m.e - m.b * m.d) / m.d) (m.a / m.d) m.c 1 m.f ∘ (swap ∘ tri m.d m.e 0 1 0) := by
      funext p
      simp only [tri, Mat3.apply, swap, Function.comp]
      ext
      · simp only
        field_simp
        ring
      · simp only
        ring
    rw [e]
    exact (carries_tri (div_ne_zero (neg_ne_zero.2 hm) hd) one_ne_zero).comp (carries_swap.comp (carries_tri hd one_ne_zero))

theorem apply_onto {m : Mat3 ℝ} (hm : Solid m) (p : Pt ℝ) : ∃ q, m.apply q = p := by
  unfold Solid at hm
  refine ⟨⟨(m.e * (p.x - m.c) - m.b * (p.y - m.f)) / (m.a * m.e - m.b * m.d), (m.a * (p.y - m.f) - m.d * (p.x - m.c)) / (m.a * m.e - m.b * m.d)⟩, ?_⟩
  ext
  · simp only [Mat3.apply]
    field_simp
    ring
  · simp only [Mat3.apply]
    rw [mul_div_assoc', mul_div_assoc', ← add_div, show m.d * (m.e * (p.x - m.c) - m.b * (p.y - m.f)) + m.e * (m.a * (p.y - m.f) - m.d * (p.x - m.c)) =
      (p.y - m.f) * (m.a * m.e - m.b * m.d) by ring, mul_div_assoc, div_self hm]
    ring

/-! ### Direction and start -/

theorem crossing_comm (p a b : Pt ℝ) : crossing p a b = crossing p b a := by
  have h := crossing_symm p a b
  have h2 : ∀ x y : ZMod 2, x + y = 0 → x = y := by decide
  exact h2 _ _ h

theorem cyc_rotate (Φ : Pt ℝ → Pt ℝ → ZMod 2) (l : List (Pt ℝ)) (k : ℕ) : cyc Φ (l.rotate k) = cyc Φ l := by
  rw [cyc, cyc, List.rotate_rotate, add_comm, ← List.rotate_rotate, ← List.zipWith_rotate_distrib _ _ _ _ (by simp)]
  exact (List.rotate_perm _ _).sum_eq

theorem run_reverse (Φ : Pt ℝ → Pt ℝ → ZMod 2) : ∀ l : List (Pt ℝ), run Φ l.reverse = run (fun a b => Φ b a) l
  | [] => rfl
  | [_] => rfl
  | a :: b :: l => by
    rw [List.reverse_cons, List.reverse_cons, List.append_assoc]
    have h := run_glue Φ l.reverse [a] b
    rw [List.append_assoc] at h
    rw [h, ← List.reverse_cons, run_reverse Φ (b :: l)]
    simp [run, add_comm]

theorem cyc_reverse (Φ : Pt ℝ → Pt ℝ → ZMod 2) (l : List (Pt ℝ)) : cyc Φ l.reverse = cyc (fun a b => Φ b a) l := by
  cases l with
  | nil => rfl
  | cons a l =>
    rw [← cyc_rotate Φ _ l.length, List.reverse_cons]
    have : (l.reverse ++ [a]).rotate l.length = a :: l.reverse := by
      rw [← List.length_reverse, List.rotate_append_length_eq]; rfl
    rw [this, cyc_cons, cyc_cons, ← run_reverse]
    simp

/-! ### What is around a covered point -/

theorem covers_around {pts : List (Pt ℝ)} {p : Pt ℝ} (h : Covers pts p) :
    (∃ a ∈ pts, a.x ≤ p.x) ∧ (∃ a ∈ pts, p.x < a.x) ∧ (∃ a ∈ pts, a.y ≤ p.y) ∧ ∃ a ∈ pts, p.y < a.y := by
  classical
  have hmem : ∀ e ∈ pts.zip (pts.rotate 1), e.1 ∈ pts ∧ e.2 ∈ pts := fun e he => ⟨(List.of_mem_zip he).1, by simpa using (List.of_mem_zip he).2⟩
  rw [covers_iff] at h
  have hz : ∀ l : List (Pt ℝ), cyc (fun _ _ => (0 : ZMod 2)) l = 0 := fun l => by
    have := cyc_bound (fun _ => 0) l
    simpa using this
  refine ⟨?_, ?_, ?_, ?_⟩
  · by_contra hc
    push Not at hc
    rw [cyc_change (Ψ := fun _ _ => 0) (fun a => if p.y < a.y then 1 else 0), hz] at h
    · exact absurd h (by decide)
    · intro e he
      obtain ⟨h1, h2⟩ := hmem e he
      refine (z2 (Crosses p e.1 e.2) False (p.y < e.1.y) (p.y < e.2.y) ?_).trans (by simp)
      have hx1 := hc _ h1
      have hx2 := hc _ h2
      by_cases hy : p.y < e.1.y ↔ p.y < e.2.y
      · simp [Crosses, hy]
      · rw [iff_false, crosses_iff]
        simp only [sub_pos, hy, not_false_eq_true, true_and, iff_false, not_not]
        by_cases ha : p.y < e.1.y
        · have hb : ¬ p.y < e.2.y := fun hb => hy ⟨fun _ => hb, fun _ => ha⟩
          refine mul_pos_of_neg_of_neg ?_ (by linarith)
          nlinarith [mul_pos (sub_pos.2 ha) (sub_pos.2 hx2), mul_nonneg (sub_nonneg.2 hx1.le) (by linarith : 0 ≤ p.y - e.2.y)]
        · have hb : p.y < e.2.y := by
            by_contra hb
            exact hy ⟨fun h => absurd h ha, fun h => absurd h hb⟩
          refine mul_pos ?_ (by linarith)
          nlinarith [mul_pos (sub_pos.2 hb) (sub_pos.2 hx1), mul_nonneg (sub_nonneg.2 hx2.le) (by linarith : 0 ≤ p.y - e.1.y)]
  · by_contra hc
    push Not at hc
    rw [cyc_change (Ψ := fun _ _ => 0) (fun _ => 0), hz] at h
    · exact absurd h (by decide)
    · intro e he
      obtain ⟨h1, h2⟩ := hmem e he
      simp only [crossing, add_zero, ite_eq_right_iff, one_ne_zero, imp_false, crosses_iff, not_and, sub_pos]
      have hx1 := hc _ h1
      have hx2 := hc _ h2
      intro hy
      by_cases ha : p.y < e.1.y
      · have hb : ¬ p.y < e.2.y := fun hb => hy ⟨fun _ => hb, fun _ => ha⟩
        refine not_lt.2 (mul_nonpos_of_nonneg_of_nonpos ?_ (by linarith))
        nlinarith [mul_nonneg (sub_nonneg.2 ha.le) (sub_nonneg.2 hx2), mul_nonneg (sub_nonneg.2 hx1) (by linarith : 0 ≤ p.y - e.2.y)]
      · have hb : p.y < e.2.y := by
          by_contra hb
          exact hy ⟨fun h => absurd h ha, fun h => absurd h hb⟩
        refine not_lt.2 (mul_nonpos_of_nonpos_of_nonneg ?_ (by linarith))
        nlinarith [mul_nonneg (sub_nonneg.2 hb.le) (sub_nonneg.2 hx1), mul_nonneg (sub_nonneg.2 hx2) (by linarith : 0 ≤ p.y - e.1.y)]
  · by_contra hc
    push Not at hc
    rw [cyc_change (Ψ := fun _ _ => 0) (fun _ => 0), hz] at h
    · exact absurd h (by decide)
    · intro e he
      obtain ⟨h1, h2⟩ := hmem e he
      simp [crossing, Crosses, hc _ h1, hc _ h2]
  · by_contra hc
    push Not at hc
    rw [cyc_change (Ψ := fun _ _ => 0) (fun _ => 0), hz] at h
    · exact absurd h (by decide)
    · intro e he
      obtain ⟨h1, h2⟩ := hmem e he
      simp [crossing, Crosses, not_lt.2 (hc _ h1), not_lt.2 (hc _ h2)]

/-! ### Drawing under a further transform -/

/-- The loop over the holes, filled, in terms of what each hole draws. -/
def fillD (cfg : DCfg) (edge : PenBrush) (m : Mat3 ℝ) : List Elem → List Path × Path → Except PyErr (List Path × Path)
  | [], acc => .ok acc
  | e :: rest, acc => (drawn cfg e m).bind fun ps => (fillInside edge ps ps acc).bind fun acc => fillD cfg edge m rest acc

/-- The loop over the holes, not filled, in terms of what each hole draws. -/
def edgeD (cfg : DCfg) (edge : PenBrush) (m : Mat3 ℝ) : List Elem → List Path → Except PyErr (List Path)
  | [], acc => .ok acc
  | e :: rest, acc => (drawn cfg e m).bind fun ps => edgeD cfg edge m rest (acc ++ ps.map fun q => { q with pb := edge })

theorem pathsFill_fillD (cfg : DCfg) (edge : PenBrush) (es : List Elem) (s : TState) (acc : List Path × Path) :
    (pathsFill cfg edge es s acc).2 = fillD cfg edge s.mat es acc := by
  induction es generalizing s acc with
  | nil => simp [pathsFill, fillD]
  | cons e es ih =>
    rw [pathsFill, fillD]
    have h1 := (paths_keeps cfg e s).1
    have h2 := drawn_push cfg e s
    obtain ⟨a, r, ha⟩ := pair_cases (paths cfg e s)
    rw [ha] at h1 h2 ⊢
    simp only at h1 h2
    rw [← h2]
    cases r with
    | error er => rfl
    | ok ps =>
      simp only [Except.bind]
      cases fillInside edge ps ps acc with
      | error er => rfl
      | ok acc' => simp only [ih, h1]

theorem pathsEdge_edgeD (cfg : DCfg) (edge : PenBrush) (es : List Elem) (s : TState) (acc : List Path) :
    (pathsEdge cfg edge es s acc).2 = edgeD cfg edge s.mat es acc := by
  induction es generalizing s acc with
  | nil => simp [pathsEdge, edgeD]
  | cons e es ih =>
    rw [pathsEdge, edgeD]
    have h1 := (paths_keeps cfg e s).1
    have h2 := drawn_push cfg e s
    obtain ⟨a, r, ha⟩ := pair_cases (paths cfg e s)
    rw [ha] at h1 h2 ⊢
    simp only at h1 h2
    rw [← h2]
    cases r with
    | error er => rfl
    | ok ps => simp only [Except.bind, ih, h1]

/-- What a shape with holes draws, in terms of what its outside and holes draw. -/
def holesD (cfg : DCfg) (h : Hdr) (m : Mat3 ℝ) (inside : List Elem) : List Path → Except PyErr (List Path)
  | [edge] =>
    match h.pb.brush with
    | some b => (fillD cfg ⟨h.pb.pen, none⟩ m inside ([{ edge with pb := ⟨h.pb.pen, none⟩ }], ⟨⟨none, some b⟩, edge.closed, edge.pts⟩)).map fun x => x.2 :: x.1
    | none => edgeD cfg ⟨h.pb.pen, none⟩ m inside [{ edge with pb := ⟨h.pb.pen, none⟩ }]
  | _ => .error .assertion

theorem drawn_holes (cfg : DCfg) (h : Hdr) (o : Elem) (inside : List Elem) (m : Mat3 ℝ) :
    drawn cfg (.holes h o inside) m = (drawn cfg o (m.mul h.xf)).bind (holesD cfg h (m.mul h.xf) inside) := by
  simp only [drawn, paths_holes, drawSpace_eq (holesBody_keeps cfg h o inside), holesBody, TState.push, TState.compose]
  have h1 := (paths_keeps cfg o ⟨m.mul h.xf, none, [m]⟩).1
  have h2 := drawn_push cfg o ⟨m.mul h.xf, none, [m]⟩
  obtain ⟨a, r, ha⟩ := pair_cases (paths cfg o ⟨m.mul h.xf, none, [m]⟩)
  rw [ha] at h1 h2 ⊢
  simp only at h1 h2
  change _ = (drawn cfg o (m.mul h.xf)).bind _
  rw [← h2]
  match r with
  | .error er => rfl
  | .ok [] => rfl
  | .ok (_ :: _ :: _) => rfl
  | .ok [edge] =>
    simp only [Except.bind, holesD]
    cases hb : h.pb.brush with
    | none => simp only [pathsEdge_edgeD, h1]
    | some b =>
      simp only
      have h3 := pathsFill_fillD cfg ⟨h.pb.pen, none⟩ inside a ([{ edge with pb := ⟨h.pb.pen, none⟩ }], ⟨⟨none, some b⟩, edge.closed, edge.pts⟩)
      rw [h1] at h3
      rw [← h3]
      obtain ⟨c, t, hc⟩ := pair_cases (pathsFill cfg ⟨h.pb.pen, none⟩ inside a ([{ edge with pb := ⟨h.pb.pen, none⟩ }], ⟨⟨none, some b⟩, edge.closed, edge.pts⟩))
      rw [hc]
      cases t <;> rfl

theorem extend_moved (n : Mat3 ℝ) (fill : Path) (pts : List (Pt ℝ)) (r : Bool) : (mapped n fill).extend (pts.map n.apply) r = (fill.extend pts r).map (mapped n) := by
  cases r with
  | false => simp [Path.extend, mapped, Except.map]
  | true =>
    simp only [Path.extend, if_true]
    rw [show (mapped n fill).pts = fill.pts.map n.apply from rfl, List.getLast?_map]
    cases fill.pts.getLast? with
    | none => rfl
    | some q => simp [mapped, Except.map]

theorem fillInside_moved (n : Mat3 ℝ) (edge : PenBrush) (ps : List Path) : ∀ (l : List Path) (edges : List Path) (fill : Path),
    fillInside edge (ps.map (mapped n)) (l.map (mapped n)) (edges.map (mapped n), mapped n fill) =
      (fillInside edge ps l (edges, fill)).map fun x => (x.1.map (mapped n), mapped n x.2)
  | [], edges, fill => rfl
  | p :: l, edges, fill => by
    rw [List.map_cons, fillInside, fillInside]
    have e : (mapped n fill).extend (mapped n p).pts true = (fill.extend p.pts true).map (mapped n) := extend_moved n fill p.pts true
    rw [e]
    cases fill.extend p.pts true with
    | error er => rfl
    | ok f =>
      simp only [Except.map]
      have := fillInside_moved n edge ps l (edges ++ ps.map fun q => { q with pb := edge }) f
      rw [List.map_append, List.map_map] at this
      rw [List.map_map]
      exact this

theorem drawn_moved_basic (cfg : DCfg) (n : Mat3 ℝ) (e : Elem) (hb : e.Basic) (he : e.hdr.xf.Affine) (m : Mat3 ℝ) (hm : m.Affine) :
    drawn cfg e (n.mul m) = (drawn cfg e m).map (List.map (mapped n)) := by
  rw [drawn_basic cfg e hb, drawn_basic cfg e hb]
  cases outline cfg e with
  | error er => rfl
  | ok pts =>
    simp only [Except.map, List.map_cons, List.map_nil, mapped, List.map_map]
    congr 4
    funext p
    rw [Mat3.mul_assoc', Mat3.apply_mul (Mat3.affine_mul hm he)]
    rfl

mutual
theorem drawn_moved (cfg : DCfg) (n : Mat3 ℝ) : (e : Elem) → AffineOwn e → (m : Mat3 ℝ) → m.Affine →
    drawn cfg e (n.mul m) = (drawn cfg e m).map (List.map (mapped n))
  | .curve h cps, he, m, hm => drawn_moved_basic cfg n (.curve h cps) trivial (by rw [AffineOwn] at he; exact he) m hm
  | .rect h p1 p2, he, m, hm => drawn_moved_basic cfg n (.rect h p1 p2) trivial (by rw [AffineOwn] at he; exact he) m hm
  | .rrect h p1 p2 r, he, m, hm => drawn_moved_basic cfg n (.rrect h p1 p2 r) trivial (by rw [AffineOwn] at he; exact he) m hm
  | .ellipse h p1 p2, he, m, hm => drawn_moved_basic cfg n (.ellipse h p1 p2) trivial (by rw [AffineOwn] at he; exact he) m hm
  | .group h true es, he, m, hm => by rw [drawn_hidden, drawn_hidden]; rfl
  | .group h false es, he, m, hm => by
    rw [AffineOwn] at he
    rw [drawn_group, drawn_group, Mat3.mul_assoc', drawn_moved_all cfg n es he.2 _ (Mat3.affine_mul hm he.1)]
    cases es.mapM fun x => drawn cfg x.2 (m.mul h.xf) with
    | error er => rfl
    | ok l => simp [Except.map, List.map_flatten]
  | .holes h o i, he, m, hm => by
    rw [AffineOwn] at he
    have ha := Mat3.affine_mul hm he.1
    rw [drawn_holes, drawn_holes, Mat3.mul_assoc', drawn_moved cfg n o he.2.1 _ ha]
    match drawn cfg o (m.mul h.xf) with
    | .error er => rfl
    | .ok [] => rfl
    | .ok (_ :: _ :: _) => rfl
    | .ok [edge] =>
      simp only [Except.map, Except.bind, List.map_cons, List.map_nil, holesD]
      cases hb : h.pb.brush with
      | none =>
        simp only
        exact drawn_moved_edge cfg n ⟨h.pb.pen, none⟩ i he.2.2 _ ha [{ edge with pb := ⟨h.pb.pen, none⟩ }]
      | some b =>
        simp only
        have := drawn_moved_fill cfg n ⟨h.pb.pen, none⟩ i he.2.2 _ ha [{ edge with pb := ⟨h.pb.pen, none⟩ }] ⟨⟨none, some b⟩, edge.closed, edge.pts⟩
        change Except.map _ (fillD _ _ _ _ (List.map (mapped n) [{ edge with pb := ⟨h.pb.pen, none⟩ }], mapped n ⟨⟨none, some b⟩, edge.closed, edge.pts⟩)) = _
        rw [this]
        cases fillD cfg ⟨h.pb.pen, none⟩ (m.mul h.xf) i ([{ edge with pb := ⟨h.pb.pen, none⟩ }], ⟨⟨none, some b⟩, edge.closed, edge.pts⟩) <;> rfl
theorem drawn_moved_all (cfg : DCfg) (n : Mat3 ℝ) : (es : List (Str × Elem)) → AffineAll es → (m : Mat3 ℝ) → m.Affine →
    (es.mapM fun x => drawn cfg x.2 (n.mul m)) = (es.mapM fun x => drawn cfg x.2 m).map (List.map (List.map (mapped n)))
  | [], _, _, _ => rfl
  | (k, e) :: es, he, m, hm => by
    rw [AffineAll] at he
    rw [List.mapM_cons, List.mapM_cons, drawn_moved cfg n e he.1 m hm, drawn_moved_all cfg n es he.2 m hm]
    cases drawn cfg e m with
    | error er => rfl
    | ok ps => cases es.mapM fun x => drawn cfg x.2 m <;> rfl
theorem drawn_moved_fill (cfg : DCfg) (n : Mat3 ℝ) (edge : PenBrush) : (es : List Elem) → AffineIn es → (m : Mat3 ℝ) → m.Affine →
    (edges : List Path) → (fill : Path) → fillD cfg edge (n.mul m) es (edges.map (mapped n), mapped n fill) =
      (fillD cfg edge m es (edges, fill)).map fun x => (x.1.map (mapped n), mapped n x.2)
  | [], _, _, _, _, _ => rfl
  | e :: es, he, m, hm, edges, fill => by
    rw [AffineIn] at he
    rw [fillD, fillD, drawn_moved cfg n e he.1 m hm]
    cases drawn cfg e m with
    | error er => rfl
    | ok ps =>
      simp only [Except.map, Except.bind]
      rw [fillInside_moved]
      cases fillInside edge ps ps (edges, fill) with
      | error er => rfl
      | ok x => exact drawn_moved_fill cfg n edge es he.2 m hm x.1 x.2
theorem drawn_moved_edge (cfg : DCfg) (n : Mat3 ℝ) (edge : PenBrush) : (es : List Elem) → AffineIn es → (m : Mat3 ℝ) → m.Affine →
    (edges : List Path) → edgeD cfg edge (n.mul m) es (edges.map (mapped n)) = (edgeD cfg edge m es edges).map (List.map (mapped n))
  | [], _, _, _, _ => rfl
  | e :: es, he, m, hm, edges => by
    rw [AffineIn] at he
    rw [edgeD, edgeD, drawn_moved cfg n e he.1 m hm]
    cases drawn cfg e m with
    | error er => rfl
    | ok ps =>
      simp only [Except.map, Except.bind]
      have := drawn_moved_edge cfg n edge es he.2 m hm (edges ++ ps.map fun q => { q with pb := edge })
      rw [List.map_append, List.map_map] at this
      rw [List.map_map]
      exact this
end

end X7.Elem
