import Verif.Lemmas.FlField
import Verif.Lemmas.Mat3
import Verif.Props.RndAnim
import Verif.Props.RndFit
import Verif.Props.RndVec

/-!
C103: vector fields, inverse transforms and fits to a canvas under rounding. `R` is any rounding with the properties of `Rnd`.
-/

noncomputable section

namespace X7
open Rnd
variable (R : Rnd)

/-! ### Vector fields -/

/-- C103: `scaled` rounds each component once: the mesh stays, the error is at most one rounding, signs are those of the exact
product, and scaling by 1, -1 or 2 is exact. -/
theorem C103_scaled (f : VF.Field) (hf : ∀ i j, R.Rep (f.vx i j) ∧ R.Rep (f.vy i j)) (sx sy : ℝ) :
    let g := Fl.fieldScaled R f sx (some sy)
    g.mesh = f.mesh ∧
    (∀ i j, |g.vx i j - f.vx i j * sx| ≤ R.u * |f.vx i j * sx| ∧ |g.vy i j - f.vy i j * sy| ≤ R.u * |f.vy i j * sy|) ∧
    (∀ i j, (g.vx i j = 0 ↔ f.vx i j = 0 ∨ sx = 0) ∧ (g.vy i j = 0 ↔ f.vy i j = 0 ∨ sy = 0)) ∧
    (sx = 1 ∨ sx = -1 ∨ sx = 2 → ∀ i j, g.vx i j = f.vx i j * sx) ∧
    (sy = 1 ∨ sy = -1 ∨ sy = 2 → ∀ i j, g.vy i j = f.vy i j * sy) ∧
    Fl.fieldScaled R f sx none = Fl.fieldScaled R f sx (some sx) := by
  have ex : ∀ v s, R.Rep v → (s = 1 ∨ s = -1 ∨ s = 2) → R.fl (v * s) = v * s := by
    intro v s hv hs
    unfold Rep at hv
    rcases hs with rfl | rfl | rfl
    · rw [mul_one, hv]
    · rw [mul_neg, mul_one, R.neg, hv]
    · rw [mul_comm, R.dbl, hv]
  refine ⟨rfl, fun i j => ⟨R.err _, R.err _⟩, fun i j => ⟨?_, ?_⟩, fun h i j => ex _ _ (hf i j).1 h, fun h i j => ex _ _ (hf i j).2 h, rfl⟩
  · show R.fl _ = 0 ↔ _
    rw [R.fl_eq_zero, mul_eq_zero]
  · show R.fl _ = 0 ↔ _
    rw [R.fl_eq_zero, mul_eq_zero]

/-- C103: `normalized` gives the exact result up to a factor that two roundings up and two roundings down make: no component changes
its sign, none becomes or ceases to be 0. -/
theorem C103_normalized (f : VF.Field) (h0 : ∃ i j, i < f.mesh.n ∧ j < f.mesh.n ∧ ¬ (f.vx i j = 0 ∧ f.vy i j = 0)) :
    ∃ g' g, Fl.fieldNormalized R f = .ok (some g') ∧ f.normalized = .ok (some g) ∧ g'.mesh = f.mesh ∧
      ∀ i j, i < f.mesh.n → j < f.mesh.n →
        WithinFactor (((1 + R.u) / (1 - R.u)) ^ 2) (g'.vx i j) (g.vx i j) ∧
        WithinFactor (((1 + R.u) / (1 - R.u)) ^ 2) (g'.vy i j) (g.vy i j) :=
  Fl.normalized_rel rfl (fun i j _ _ => Fl.SRel.refl _) (fun i j _ _ => Fl.SRel.refl _) h0

theorem Fl.sq_le_of_factor {q x' x : ℝ} (h : WithinFactor q x' x) : x' ^ 2 ≤ q ^ 2 * x ^ 2 ∧ x ^ 2 ≤ q ^ 2 * x' ^ 2 := by
  obtain ⟨-, h1, h2⟩ := h
  constructor
  · rw [← sq_abs x', ← sq_abs x, ← mul_pow]; exact pow_le_pow_left₀ (abs_nonneg _) h1 2
  · rw [← sq_abs x', ← sq_abs x, ← mul_pow]; exact pow_le_pow_left₀ (abs_nonneg _) h2 2

theorem Fl.len_le {q a b c d : ℝ} (hq : 0 ≤ q) (h1 : a ^ 2 ≤ q ^ 2 * c ^ 2) (h2 : b ^ 2 ≤ q ^ 2 * d ^ 2) :
    √(a ^ 2 + b ^ 2) ≤ q * √(c ^ 2 + d ^ 2) := by
  rw [← Real.sqrt_sq hq, ← Real.sqrt_mul (sq_nonneg q)]
  apply Real.sqrt_le_sqrt
  rw [mul_add]; exact add_le_add h1 h2

theorem Fl.factor_pos : 0 < (1 + R.u) / (1 - R.u) := div_pos (by linarith [R.one_le_add]) R.one_sub_pos

theorem Fl.factor_ge (k : ℕ) : 1 ≤ ((1 + R.u) / (1 - R.u)) ^ k := by
  apply one_le_pow₀
  rw [one_le_div R.one_sub_pos]
  linarith [R.u_nonneg]

/-- C103: after `normalized` no vector is longer than 1, and one is at least as long as 1, up to the factor of two roundings up and two
down. -/
theorem C103_normalized_longest (f : VF.Field) (h0 : ∃ i j, i < f.mesh.n ∧ j < f.mesh.n ∧ ¬ (f.vx i j = 0 ∧ f.vy i j = 0)) :
    ∃ g, Fl.fieldNormalized R f = .ok (some g) ∧
      (∀ i j, i < f.mesh.n → j < f.mesh.n → fieldLen g i j ≤ ((1 + R.u) / (1 - R.u)) ^ 2) ∧
      ∃ i j, i < f.mesh.n ∧ j < f.mesh.n ∧ 1 ≤ ((1 + R.u) / (1 - R.u)) ^ 2 * fieldLen g i j := by
  obtain ⟨g', g, e', e, -, h⟩ := C103_normalized R f h0
  have hq : 0 ≤ ((1 + R.u) / (1 - R.u)) ^ 2 := (pow_pos (Fl.factor_pos R) 2).le
  obtain ⟨i₀, j₀, hi₀, hj₀, hne⟩ := h0
  have hn : 0 < f.mesh.n := by omega
  have hpos : 0 < VF.amax f.mesh.n f.mag := by
    refine lt_of_lt_of_le ?_ (VF.amax_ge hi₀ hj₀)
    refine Real.sqrt_pos.2 ?_
    rcases not_and_or.1 hne with h | h
    · have := mul_self_pos.2 h; nlinarith [mul_self_nonneg (f.vy i₀ j₀)]
    · have := mul_self_pos.2 h; nlinarith [mul_self_nonneg (f.vx i₀ j₀)]
  have hg : g = ⟨f.mesh, fun i j => f.vx i j * (1 / VF.amax f.mesh.n f.mag), fun i j => f.vy i j * (1 / VF.amax f.mesh.n f.mag)⟩ := by
    unfold VF.Field.normalized at e
    rw [if_neg (by omega)] at e
    simp only at e
    rw [if_neg hpos.ne'] at e
    injection e with e
    injection e with e
    exact e.symm
  have len : ∀ i j, fieldLen g i j = f.mag i j / VF.amax f.mesh.n f.mag := by
    intro i j
    unfold fieldLen VF.Field.mag
    rw [hg]
    simp only
    rw [show (f.vx i j * (1 / VF.amax f.mesh.n f.mag)) ^ 2 + (f.vy i j * (1 / VF.amax f.mesh.n f.mag)) ^ 2 =
      (f.vx i j * f.vx i j + f.vy i j * f.vy i j) / VF.amax f.mesh.n f.mag ^ 2 by field_simp,
      Real.sqrt_div' _ (sq_nonneg _), Real.sqrt_sq hpos.le]
    rfl
  refine ⟨g', e', fun i j hi hj => ?_, ?_⟩
  · have := h i j hi hj
    have l := Fl.len_le hq (Fl.sq_le_of_factor this.1).1 (Fl.sq_le_of_factor this.2).1
    refine l.trans ?_
    have : fieldLen g i j ≤ 1 := by
      rw [len, div_le_one hpos]; exact VF.amax_ge hi hj
    have := mul_le_mul_of_nonneg_left this hq
    rw [mul_one] at this
    exact this
  · obtain ⟨i, j, hi, hj, hmax⟩ := VF.amax_mem hn f.mag
    refine ⟨i, j, hi, hj, ?_⟩
    have := h i j hi hj
    have l := Fl.len_le hq (Fl.sq_le_of_factor this.1).2 (Fl.sq_le_of_factor this.2).2
    have one : fieldLen g i j = 1 := by rw [len, hmax, div_self]; rw [← hmax]; exact hpos.ne'
    have l' : fieldLen g i j ≤ ((1 + R.u) / (1 - R.u)) ^ 2 * fieldLen g' i j := l
    rw [one] at l'
    exact l'

/-- C103: `normalized` gives a field of NaNs exactly when all vectors are 0, with rounding as without. -/
theorem C103_normalized_nan (f : VF.Field) (hn : 0 < f.mesh.n) :
    (Fl.fieldNormalized R f = .ok none ↔ ∀ i j, i < f.mesh.n → j < f.mesh.n → f.vx i j = 0 ∧ f.vy i j = 0) := by
  constructor
  · intro h i j hi hj
    by_contra hne
    obtain ⟨g', -, e', -⟩ := C103_normalized R f ⟨i, j, hi, hj, hne⟩
    rw [h] at e'
    injection e' with e'
    cases e'
  · intro h
    obtain ⟨i, j, hi, hj, e⟩ := VF.amax_mem hn (Fl.fieldMag R f)
    have z : VF.amax f.mesh.n (Fl.fieldMag R f) = 0 := by
      rw [e]
      unfold Fl.fieldMag
      rw [(h i j hi hj).1, (h i j hi hj).2]
      simp [R.fl_zero]
    unfold Fl.fieldNormalized
    rw [if_neg (by omega)]
    simp only
    rw [if_pos z]

/-- The numbers for the counterexample. -/
theorem Fl.inv49 : flBin 53 (1 / 49) = 5882252574524729 * 2 ^ (-58 : ℤ) ∧
    flBin 53 (49 * (5882252574524729 * 2 ^ (-58 : ℤ))) = 1 - 2 ^ (-53 : ℤ) := by
  constructor
  · have := Fl.flBin_eq 53 (1 / 49) (-6) 5882252574524729 (by rw [abs_of_pos (by norm_num)]; norm_num)
      (by rw [abs_of_pos (by norm_num)]; norm_num) ⟨by norm_num [abs_le], by intro h; norm_num [abs_of_pos, abs_of_neg] at h⟩
    rw [this]; norm_num
  · have := Fl.flBin_eq 53 (49 * (5882252574524729 * 2 ^ (-58 : ℤ))) (-1) (2 ^ 53 - 1) (by rw [abs_of_pos (by norm_num)]; norm_num)
      (by rw [abs_of_pos (by norm_num)]; norm_num) ⟨by norm_num [abs_le], by intro h; norm_num [abs_of_pos, abs_of_neg] at h⟩
    rw [this]; norm_num

/-- C103: the longest vector need not be of length 1: with the 53 digits of Python's floats, a field of vectors (49, 0) is normalised
to vectors (1 - 2⁻⁵³, 0). -/
theorem C103_longest_counterexample (m : VF.Mesh) (hm : 0 < m.n) :
    ∃ R : Rnd, R.u = 2 ^ (-53 : ℤ) ∧ ∃ g, Fl.fieldNormalized R ⟨m, fun _ _ => 49, fun _ _ => 0⟩ = .ok (some g) ∧
      ∀ i j, g.vx i j = 1 - 2 ^ (-53 : ℤ) ∧ g.vy i j = 0 := by
  let R := Rnd.binary 53 (by norm_num)
  have int : ∀ n : ℤ, |n| ≤ 2 ^ 53 → R.fl n = n := by
    intro n h
    have := flBin_rep 53 (by norm_num) n 0 h
    simp only [zpow_zero, mul_one] at this
    exact this
  have h49 : R.fl 49 = 49 := by exact_mod_cast int 49 (by norm_num)
  have hsq : R.fl (49 * 49) = 49 * 49 := by
    have := int 2401 (by norm_num)
    push_cast at this
    norm_num at this ⊢
    exact this
  have mag : ∀ i j, Fl.fieldMag R ⟨m, fun _ _ => 49, fun _ _ => 0⟩ i j = 49 := by
    intro i j
    unfold Fl.fieldMag
    simp only [mul_zero, R.fl_zero, add_zero, hsq]
    rw [Real.sqrt_mul_self (by norm_num), h49]
  have hmax : VF.amax m.n (Fl.fieldMag R ⟨m, fun _ _ => 49, fun _ _ => 0⟩) = 49 := by
    obtain ⟨i, j, -, -, e⟩ := VF.amax_mem hm (Fl.fieldMag R ⟨m, fun _ _ => 49, fun _ _ => 0⟩)
    rw [e, mag]
  refine ⟨R, rfl, ⟨m, fun _ _ => R.fl (49 * R.fl (1 / 49)), fun _ _ => R.fl (0 * R.fl (1 / 49))⟩, ?_, fun i j => ⟨?_, ?_⟩⟩
  · unfold Fl.fieldNormalized
    rw [if_neg (by show ¬ m.n = 0; omega)]
    simp only
    rw [hmax, if_neg (by norm_num)]
  · show flBin 53 (49 * flBin 53 (1 / 49)) = _
    rw [Fl.inv49.1, Fl.inv49.2]
  · show R.fl (0 * _) = 0
    rw [zero_mul, R.fl_zero]

/-- C103: what `smoothed` normalises are the exact weighted means up to 18 roundings, relative to the weighted means of the absolute
values. -/
theorem C103_smoothed_mean (f : VF.Field) :
    ∃ w : VF.Field, Fl.fieldSmoothed R f = Fl.fieldNormalized R w ∧ w.mesh = f.mesh ∧ ∀ i j,
      |w.vx i j - VF.smoothVal f.mesh.n f.vx i j| ≤ R.gam 18 * VF.smoothVal f.mesh.n (fun x y => |f.vx x y|) i j ∧
      |w.vy i j - VF.smoothVal f.mesh.n f.vy i j| ≤ R.gam 18 * VF.smoothVal f.mesh.n (fun x y => |f.vy x y|) i j :=
  ⟨_, rfl, rfl, fun i j => ⟨(Fl.smoothVal_near _ _ i j).2, (Fl.smoothVal_near _ _ i j).2⟩⟩

/-- C103: when all x-components have one sign and all y-components have one sign, nothing cancels, and `smoothed` gives the exact
result up to a factor that 20 roundings up and 20 roundings down make. -/
theorem C103_smoothed (f : VF.Field) (hx : OneSign f.mesh.n f.vx) (hy : OneSign f.mesh.n f.vy)
    (h0 : ∃ i j, i < f.mesh.n ∧ j < f.mesh.n ∧ ¬ (f.vx i j = 0 ∧ f.vy i j = 0)) :
    ∃ g' g, Fl.fieldSmoothed R f = .ok (some g') ∧ f.smoothed = .ok (some g) ∧ g'.mesh = f.mesh ∧
      ∀ i j, i < f.mesh.n → j < f.mesh.n →
        WithinFactor (((1 + R.u) / (1 - R.u)) ^ 20) (g'.vx i j) (g.vx i j) ∧
        WithinFactor (((1 + R.u) / (1 - R.u)) ^ 20) (g'.vy i j) (g.vy i j) := by
  have nz : ∀ a : ℕ → ℕ → ℝ, OneSign f.mesh.n a → ∀ i j, i < f.mesh.n → j < f.mesh.n → a i j ≠ 0 → VF.smoothVal f.mesh.n a i j ≠ 0 := by
    have pos : ∀ a : ℕ → ℕ → ℝ, (∀ i j, i < f.mesh.n → j < f.mesh.n → 0 ≤ a i j) → ∀ i j, i < f.mesh.n → j < f.mesh.n →
        a i j ≠ 0 → VF.smoothVal f.mesh.n a i j ≠ 0 := by
      intro a ha i j hi hj hne
      have hs : 0 ≤ VF.windowSum f.mesh.n a i j := by
        rw [← Fl.cells_sum]
        apply List.sum_nonneg
        intro v hv
        simp only [Fl.cells, List.mem_flatMap, List.mem_map] at hv
        obtain ⟨x, hx, y, hy, rfl⟩ := hv
        exact ha x y (VF.mem_window.1 hx).1 (VF.mem_window.1 hy).1
      have hp : 0 < a i j := lt_of_le_of_ne (ha i j hi hj) (Ne.symm hne)
      have : 0 < VF.smoothVal f.mesh.n a i j := by
        unfold VF.smoothVal
        apply div_pos
        · have : (0 : ℝ) < (20 - 1) * a i j := by linarith
          linarith
        · positivity
      exact this.ne'
    intro a ha i j hi hj hne
    rcases ha with ha | ha
    · exact pos a ha i j hi hj hne
    · have := pos (fun x y => -a x y) (fun i j h1 h2 => by linarith [ha i j h1 h2]) i j hi hj (by simpa using hne)
      rw [Fl.smoothVal_neg'] at this
      simpa using this
  refine Fl.normalized_rel (R := R) (k := 18) (f' := ⟨f.mesh, Fl.fieldSmoothVal R f.mesh.n f.vx, Fl.fieldSmoothVal R f.mesh.n f.vy⟩)
    (f := ⟨f.mesh, VF.smoothVal f.mesh.n f.vx, VF.smoothVal f.mesh.n f.vy⟩) rfl
    (fun i j h1 h2 => Fl.smoothVal_srel _ _ hx i j h1 h2) (fun i j h1 h2 => Fl.smoothVal_srel _ _ hy i j h1 h2) ?_
  obtain ⟨i, j, hi, hj, hne⟩ := h0
  refine ⟨i, j, hi, hj, fun ⟨h1, h2⟩ => hne ⟨?_, ?_⟩⟩
  · by_contra h; exact nz _ hx i j hi hj h h1
  · by_contra h; exact nz _ hy i j hi hj h h2

/-- A field as in the theorems above: two vectors different from 0 and from each other. -/
example : ∃ f : VF.Field, (∃ i j, i < f.mesh.n ∧ j < f.mesh.n ∧ ¬ (f.vx i j = 0 ∧ f.vy i j = 0)) ∧
    OneSign f.mesh.n f.vx ∧ OneSign f.mesh.n f.vy ∧ f.vx 0 0 ≠ f.vx 1 0 :=
  ⟨⟨⟨2, 0, 0, 1, 1⟩, fun i _ => i + 1, fun _ j => -j⟩, ⟨0, 0, by norm_num, by norm_num, by norm_num⟩,
    Or.inl fun i j _ _ => by positivity, Or.inr fun i j _ _ => by simp, by norm_num⟩

/-! ### Inverse transforms -/

/-- Applying one computed matrix after another. -/
theorem Fl.apply_twice (mode mode' : DotMode) (X A : Mat3 ℝ) (p : Pt ℝ) :
    Within (R.gam 6 * (|X.a| * rowSizeX A p + |X.b| * rowSizeY A p + |X.c|)) (R.gam 6 * (|X.d| * rowSizeX A p + |X.e| * rowSizeY A p + |X.f|))
      (Fl.apply R mode X (Fl.apply R mode' A p)) (X.apply (A.apply p)) := by
  have h := Fl.apply_nearM mode' (Fl.nearM_abs (R := R) A) p
  exact ⟨(Fl.apply_near_x mode X (p' := Fl.apply R mode' A p) (p := A.apply p) h.1 h.2).2,
    (Fl.apply_near_y mode X (p' := Fl.apply R mode' A p) (p := A.apply p) h.1 h.2).2⟩

theorem Fl.near_one_apply {η : ℝ} {m : Mat3 ℝ} (h : NearOne η m) (p : Pt ℝ) :
    Within (η * (|p.x| + |p.y| + 1)) (η * (|p.x| + |p.y| + 1)) (m.apply p) p := by
  obtain ⟨⟨h1, h2, h3⟩, h4, h5, h6⟩ := h
  have b : ∀ a b c x y : ℝ, |a| ≤ η → |b| ≤ η → |c| ≤ η → |a * x + b * y + c| ≤ η * (|x| + |y| + 1) := by
    intro a b c x y ha hb hc
    calc |a * x + b * y + c| ≤ |a| * |x| + |b| * |y| + |c| := by
          refine (abs_add_le _ _).trans (add_le_add ((abs_add_le _ _).trans ?_) le_rfl)
          rw [abs_mul, abs_mul]
      _ ≤ η * |x| + η * |y| + η := by gcongr
      _ = _ := by ring
  constructor
  · have := b _ _ _ p.x p.y h1 h2 h3
    convert this using 2
    simp only [Mat3.apply]; ring
  · have := b _ _ _ p.x p.y h4 h5 h6
    convert this using 2
    simp only [Mat3.apply]; ring

/-- C103: transforming a point and then back, with whatever matrix `X` was computed as the inverse: the point comes back up to the
residual of `X` and six roundings of the sizes that occur. -/
theorem C103_untransform_transform (mode mode' : DotMode) (A X : Mat3 ℝ) (hA : A.Affine) (η : ℝ) (hX : NearOne η (X.mul A)) (p : Pt ℝ) :
    Within (η * (|p.x| + |p.y| + 1) + R.gam 6 * (|X.a| * rowSizeX A p + |X.b| * rowSizeY A p + |X.c|))
      (η * (|p.x| + |p.y| + 1) + R.gam 6 * (|X.d| * rowSizeX A p + |X.e| * rowSizeY A p + |X.f|))
      (Fl.apply R mode X (Fl.apply R mode' A p)) p := by
  have h1 := Fl.apply_twice R mode mode' X A p
  have h2 := Fl.near_one_apply hX p
  rw [Mat3.apply_mul hA] at h2
  constructor
  · have := abs_sub_le (Fl.apply R mode X (Fl.apply R mode' A p)).x (X.apply (A.apply p)).x p.x
    linarith [h1.1, h2.1]
  · have := abs_sub_le (Fl.apply R mode X (Fl.apply R mode' A p)).y (X.apply (A.apply p)).y p.y
    linarith [h1.2, h2.2]

/-- C103: the other way round. -/
theorem C103_transform_untransform (mode mode' : DotMode) (A X : Mat3 ℝ) (hX : X.Affine) (η : ℝ) (h : NearOne η (A.mul X)) (p : Pt ℝ) :
    Within (η * (|p.x| + |p.y| + 1) + R.gam 6 * (|A.a| * rowSizeX X p + |A.b| * rowSizeY X p + |A.c|))
      (η * (|p.x| + |p.y| + 1) + R.gam 6 * (|A.d| * rowSizeX X p + |A.e| * rowSizeY X p + |A.f|))
      (Fl.apply R mode A (Fl.apply R mode' X p)) p := C103_untransform_transform R mode mode' X A hX η h p

/-- The hypotheses can be met: a matrix and an inverse that is wrong in one entry. -/
example : NearOne (1 / 100) ((⟨1 / 2, 0, -1, 0, 1 / 3, -(2 / 3) + 1 / 100, 0, 0, 1⟩ : Mat3 ℝ).mul ⟨2, 0, 2, 0, 3, 2, 0, 0, 1⟩) := by
  refine ⟨⟨?_, ?_, ?_⟩, ?_, ?_, ?_⟩ <;> norm_num [Mat3.mul, abs_of_pos]

/-! ### Fits -/

theorem Fl.min_near {k : ℕ} {a' a b' b : ℝ} (ha : R.Near k a' a a) (hb : R.Near k b' b b) (ha' : 0 ≤ a') (hb' : 0 ≤ b') :
    R.Near k (min a' b') (min a b) (min a b) := by
  have h1 := ha.size_nonneg
  have h2 := hb.size_nonneg
  have g := R.gam_nonneg k
  have e1 := abs_le.1 ha.2
  have e2 := abs_le.1 hb.2
  have hm : 0 ≤ min a b := le_min h1 h2
  refine ⟨by rw [abs_of_nonneg hm], abs_le.2 ⟨?_, ?_⟩⟩
  · rcases le_total (R.gam k) 1 with hg | hg
    · have : (1 - R.gam k) * min a b ≤ min a' b' := by
        refine le_min ?_ ?_
        · have := mul_le_mul_of_nonneg_left (min_le_left a b) (by linarith : 0 ≤ 1 - R.gam k); linarith [e1.1]
        · have := mul_le_mul_of_nonneg_left (min_le_right a b) (by linarith : 0 ≤ 1 - R.gam k); linarith [e2.1]
      linarith
    · have : 0 ≤ min a' b' := le_min ha' hb'
      nlinarith
  · rcases le_total a b with h | h
    · rw [min_eq_left h]; linarith [min_le_left a' b', e1.2]
    · rw [min_eq_right h]; linarith [min_le_right a' b', e2.2]

/-- One coordinate of a point mapped by the matrix of `scale_bbox` with `keep_aspect`. -/
theorem Fl.keep_axis (s' s tw sw x xl txl : ℝ) (ht : 0 ≤ tw) (hs : 0 < sw) (n : R.Near 4 s' s s) (hsw : sw * s ≤ tw) :
    |R.fl (R.fl (s' * x) + R.fl (R.fl (s' * -xl) + R.fl (txl + R.fl (R.fl (R.fl tw - R.fl (R.fl sw * s')) / 2)))) -
      (txl + (tw - sw * s) / 2 + (x - xl) * s)| ≤ R.gam 11 * (s * (|x| + |xl|) + |txl| + tw) := by
  have w1 : R.Near 1 (R.fl tw) tw tw := (Near.of_le (R := R) (x := tw) (A := tw) (by rw [abs_of_nonneg ht])).fl
  have w2 : R.Near 1 (R.fl sw) sw sw := (Near.of_le (R := R) (x := sw) (A := sw) (by rw [abs_of_pos hs])).fl
  have n1 := ((w1.sub (w2.mul n)).half).fl
  have n2 := (Near.of_abs (R := R) txl).add n1
  have n3 := n.mul (Near.of_abs (R := R) x)
  have n4 := n.mul (Near.of_abs (R := R) (-xl))
  have n5 := (n3.add (n4.add n2)).mono (n := 11) (B := s * (|x| + |xl|) + |txl| + tw) (by norm_num) (by
    rw [abs_neg]; linarith)
  have := n5.2
  convert this using 2
  ring

/-- C103: with `keep_aspect=True` both axes are scaled by the same float, and a point is where the exact centred map would put it, up to
eleven roundings of the coordinates involved. Boxes without width or height fail. -/
theorem C103_keep_aspect (mode : DotMode) (xl yl xh yh txl tyl txh tyh : ℝ) (hb : R.RepBox (.box xl yl xh yh))
    (ht : R.RepBox (.box txl tyl txh tyh)) (tx : txl ≤ txh) (ty : tyl ≤ tyh) :
    ((xl < xh ∧ yl < yh) → ∃ m, Fl.scaleBBoxKeep R mode (.box xl yl xh yh) (.box txl tyl txh tyh) = .ok m ∧
      m.a = m.e ∧ m.b = 0 ∧ m.d = 0 ∧ m.Affine ∧ ∀ s : ℝ, s = min ((txh - txl) / (xh - xl)) ((tyh - tyl) / (yh - yl)) → ∀ p : Pt ℝ,
      Within (R.gam 11 * (s * (|p.x| + |xl|) + |txl| + (txh - txl))) (R.gam 11 * (s * (|p.y| + |yl|) + |tyl| + (tyh - tyl)))
        (Fl.apply R mode m p)
        ⟨txl + ((txh - txl) - (xh - xl) * s) / 2 + (p.x - xl) * s, tyl + ((tyh - tyl) - (yh - yl) * s) / 2 + (p.y - yl) * s⟩) ∧
    (xl = xh ∨ yl = yh → Fl.scaleBBoxKeep R mode (.box xl yl xh yh) (.box txl tyl txh tyh) = .error .zeroDivision) := by
  have w0 : R.fl (xh - xl) = 0 ↔ xl = xh := by rw [R.fl_eq_zero, sub_eq_zero, eq_comm]
  have h0 : R.fl (yh - yl) = 0 ↔ yl = yh := by rw [R.fl_eq_zero, sub_eq_zero, eq_comm]
  constructor
  · rintro ⟨hx, hy⟩
    have e : Fl.scaleBBoxKeep R mode (.box xl yl xh yh) (.box txl tyl txh tyh) =
        .ok (Fl.history R mode [(true, Mat3.translateMat (-xl) (-yl)),
          (true, Mat3.scaleMat (min (R.fl (R.fl (txh - txl) / R.fl (xh - xl))) (R.fl (R.fl (tyh - tyl) / R.fl (yh - yl))))
            (min (R.fl (R.fl (txh - txl) / R.fl (xh - xl))) (R.fl (R.fl (tyh - tyl) / R.fl (yh - yl))))),
          (true, Mat3.translateMat
            (R.fl (txl + R.fl (R.fl (R.fl (txh - txl) - R.fl (R.fl (xh - xl) * min (R.fl (R.fl (txh - txl) / R.fl (xh - xl))) (R.fl (R.fl (tyh - tyl) / R.fl (yh - yl))))) / 2)))
            (R.fl (tyl + R.fl (R.fl (R.fl (tyh - tyl) - R.fl (R.fl (yh - yl) * min (R.fl (R.fl (txh - txl) / R.fl (xh - xl))) (R.fl (R.fl (tyh - tyl) / R.fl (yh - yl))))) / 2))))]) := by
      exact if_neg (show ¬ (R.fl (xh - xl) = 0 ∨ R.fl (yh - yl) = 0) by
        rw [w0, h0]
        rintro (h | h) <;> linarith)
    have n1 := Fl.ratio_near R (txh - txl) (xh - xl) (by linarith) (by linarith)
    have n2 := Fl.ratio_near R (tyh - tyl) (yh - yl) (by linarith) (by linarith)
    have q1 : 0 ≤ R.fl (R.fl (txh - txl) / R.fl (xh - xl)) :=
      R.fl_nonneg (div_nonneg (R.fl_nonneg (by linarith)) (R.fl_nonneg (by linarith)))
    have q2 : 0 ≤ R.fl (R.fl (tyh - tyl) / R.fl (yh - yl)) :=
      R.fl_nonneg (div_nonneg (R.fl_nonneg (by linarith)) (R.fl_nonneg (by linarith)))
    have n := Fl.min_near R n1 n2 q1 q2
    have rs : R.Rep (min (R.fl (R.fl (txh - txl) / R.fl (xh - xl))) (R.fl (R.fl (tyh - tyl) / R.fl (yh - yl)))) := by
      rcases min_choice (R.fl (R.fl (txh - txl) / R.fl (xh - xl))) (R.fl (R.fl (tyh - tyl) / R.fl (yh - yl))) with h | h <;>
        rw [h] <;> exact R.rep_fl _
    rw [Fl.scaleBBox_mat R mode _ _ _ _ _ _ hb.1.1 hb.1.2 rs rs (R.rep_fl _) (R.rep_fl _)] at e
    refine ⟨_, e, rfl, rfl, rfl, ⟨rfl, rfl, rfl⟩, fun s hs p => ⟨?_, ?_⟩⟩
    · show |Fl.dot3 R mode _ p.x 0 p.y _ 1 - _| ≤ _
      rw [Fl.dot3_b0 R mode _ _ _ _ (R.rep_fl _)]
      rw [← hs] at n
      refine Fl.keep_axis R _ _ _ _ _ _ _ (by linarith) (by linarith) n ?_
      have : s ≤ (txh - txl) / (xh - xl) := by rw [hs]; exact min_le_left _ _
      rw [le_div_iff₀ (by linarith)] at this
      linarith
    · show |Fl.dot3 R mode 0 p.x _ p.y _ 1 - _| ≤ _
      rw [Fl.dot3_a0 R mode _ _ _ _ (R.rep_fl _)]
      rw [← hs] at n
      refine Fl.keep_axis R _ _ _ _ _ _ _ (by linarith) (by linarith) n ?_
      have : s ≤ (tyh - tyl) / (yh - yl) := by rw [hs]; exact min_le_right _ _
      rw [le_div_iff₀ (by linarith)] at this
      linarith
  · intro h
    exact if_pos (show R.fl (xh - xl) = 0 ∨ R.fl (yh - yl) = 0 by rw [w0, h0]; exact h)

/-- C103: `canvas_fit` makes one rounding at most: its matrix is exact but for the height of the canvas minus the offset. A point is
mapped right up to two roundings. Points further right stay right (not left) of others, and points higher up are drawn above (not
below) others, whatever is rounded. -/
theorem C103_canvas_fit (mode : DotMode) (w h zoom zx zy : ℝ) (hh : R.Rep h) (hz : R.Rep zoom) (h1 : R.Rep zx) (h2 : R.Rep zy) :
    Fl.canvasFit R mode w h zoom zx zy = ⟨zoom, 0, zx, 0, -zoom, R.fl (h - zy), 0, 0, 1⟩ ∧
    (∀ p : Pt ℝ, Within (R.gam 2 * (|zoom| * |p.x| + |zx|)) (R.gam 2 * (|zoom| * |p.y| + |zy| + |h|))
      (Fl.apply R mode (Fl.canvasFit R mode w h zoom zx zy) p) ⟨zoom * p.x + zx, h - (zoom * p.y + zy)⟩) ∧
    (0 ≤ zoom → ∀ p q : Pt ℝ,
      (p.x ≤ q.x → (Fl.apply R mode (Fl.canvasFit R mode w h zoom zx zy) p).x ≤ (Fl.apply R mode (Fl.canvasFit R mode w h zoom zx zy) q).x) ∧
      (p.y ≤ q.y → (Fl.apply R mode (Fl.canvasFit R mode w h zoom zx zy) q).y ≤ (Fl.apply R mode (Fl.canvasFit R mode w h zoom zx zy) p).y)) := by
  have f1 : R.fl h = h := hh
  have f2 : R.fl zoom = zoom := hz
  have f3 : R.fl zx = zx := h1
  have f4 : R.fl zy = zy := h2
  have e : Fl.canvasFit R mode w h zoom zx zy = ⟨zoom, 0, zx, 0, -zoom, R.fl (h - zy), 0, 0, 1⟩ := by
    unfold Fl.canvasFit
    have c : R.fl (-zy + h) = R.fl (h - zy) := by congr 1; ring
    cases mode <;>
      simp [Fl.history, Fl.mul, Fl.dot3, Mat3.translateMat, Mat3.scaleMat, Mat3.one, R.fl_zero, R.fl_one, R.neg, R.idem, f1, f2, f3, f4, c]
  have ex : ∀ p, (Fl.apply R mode (Fl.canvasFit R mode w h zoom zx zy) p).x = R.fl (R.fl (zoom * p.x) + zx) := by
    intro p; rw [e]; exact Fl.dot3_b0 R mode _ _ _ _ h1
  have ey : ∀ p, (Fl.apply R mode (Fl.canvasFit R mode w h zoom zx zy) p).y = R.fl (R.fl (-zoom * p.y) + R.fl (h - zy)) := by
    intro p; rw [e]; exact Fl.dot3_a0 R mode _ _ _ _ (R.rep_fl _)
  refine ⟨e, fun p => ⟨?_, ?_⟩, fun h0 p q => ⟨fun hpq => ?_, fun hpq => ?_⟩⟩
  · rw [ex]
    exact (((Near.of_abs (R := R) zoom).mul (Near.of_abs (R := R) p.x)).add (Near.of_abs (R := R) zx)).2
  · rw [ey]
    have := (((Near.of_abs (R := R) (-zoom)).mul (Near.of_abs (R := R) p.y)).add
      ((Near.of_abs (R := R) h).sub (Near.of_abs (R := R) zy))).2
    rw [abs_neg, show |zoom| * |p.y| + (|h| + |zy|) = |zoom| * |p.y| + |zy| + |h| by ring] at this
    have e2 : -zoom * p.y + (h - zy) = h - (zoom * p.y + zy) := by ring
    rw [e2] at this
    exact this
  · rw [ex, ex]
    exact R.mono _ _ (by linarith [R.mono _ _ (mul_le_mul_of_nonneg_left hpq h0)])
  · rw [ey, ey]
    have : -zoom * q.y ≤ -zoom * p.y := by nlinarith
    exact R.mono _ _ (by linarith [R.mono _ _ this])

/-- The hypotheses can be met: Python's floats, a canvas of height 480 and a zoom of 3. -/
example : ∃ R : Rnd, R.u = 2 ^ (-53 : ℤ) ∧ R.Rep 480 ∧ R.Rep 3 ∧ R.RepBox (.box 0 0 3 7) := by
  have r : ∀ n : ℤ, |n| ≤ 2 ^ 53 → (Rnd.binary 53 (by norm_num)).Rep n := fun n h => by
    have := flBin_rep 53 (by norm_num) n 0 h
    simp only [zpow_zero, mul_one] at this
    exact this
  refine ⟨Rnd.binary 53 (by norm_num), rfl, ?_, ?_, ⟨⟨?_, ?_⟩, ?_, ?_⟩⟩
  · exact_mod_cast r 480 (by norm_num)
  · exact_mod_cast r 3 (by norm_num)
  · exact_mod_cast r 0 (by norm_num)
  · exact_mod_cast r 0 (by norm_num)
  · exact_mod_cast r 3 (by norm_num)
  · exact_mod_cast r 7 (by norm_num)

end X7
