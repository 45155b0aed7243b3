import Verif.Lemmas.VecReal

/-!
C02 (dot, cross, normal, length, unit) and C03 (rotate, angle).
-/

namespace X7
open Real

section Field
variable {K : Type*} [Field K]

/-- C02: `dot` is symmetric and bilinear. -/
theorem C02_dot_bilinear (a b c : Vec K) (k : K) :
    a.dot b = b.dot a ∧ (a.add b).dot c = a.dot c + b.dot c ∧ (a.mul k).dot b = k * a.dot b := by
  refine ⟨?_, ?_, ?_⟩ <;> simp [Vec.dot, Vec.add, Vec.mul] <;> ring

/-- C02: `cross` is antisymmetric and bilinear. -/
theorem C02_cross_bilinear (a b c : Vec K) (k : K) :
    a.cross b = - b.cross a ∧ a.cross a = 0 ∧ (a.add b).cross c = a.cross c + b.cross c ∧
    (a.mul k).cross b = k * a.cross b := by
  refine ⟨?_, ?_, ?_, ?_⟩ <;> simp [Vec.cross, Vec.add, Vec.mul] <;> ring

/-- C02 (Lagrange): `dot² + cross² = |a|²|b|²`. -/
theorem C02_lagrange (a b : Vec K) :
    a.dot b * a.dot b + a.cross b * a.cross b = a.dot a * b.dot b := by
  simp [Vec.dot, Vec.cross]; ring

/-- C02: `normal` is perpendicular, keeps the squared length, and turns clockwise:
`cross(v, normal v) = -|v|²`; four turns are the identity, two are negation. -/
theorem C02_normal (v : Vec K) :
    v.dot v.normal = 0 ∧ v.normal.dot v.normal = v.dot v ∧ v.cross v.normal = - v.dot v ∧
    v.normal.normal = v.neg ∧ v.normal.normal.normal.normal = v := by
  refine ⟨?_, ?_, ?_, ?_, ?_⟩
  · simp [Vec.dot, Vec.normal]; ring
  · simp [Vec.dot, Vec.normal]; ring
  · simp [Vec.dot, Vec.normal, Vec.cross]; ring
  · ext <;> simp [Vec.normal, Vec.neg]
  · ext <;> simp [Vec.normal]

/-- C02: `cross` and `dot` are related by `normal`: `a.normal().dot(b) = -a.cross(b)`. -/
theorem C02_normal_dot (a b : Vec K) : a.normal.dot b = - a.cross b := by
  simp [Vec.normal, Vec.dot, Vec.cross]; ring

/-- C02: `cross == 0` exactly for linearly dependent vectors. -/
theorem C02_cross_eq_zero_iff (a b : Vec K) :
    a.cross b = 0 ↔ ∃ s t : K, ¬ (s = 0 ∧ t = 0) ∧ (a.mul s).add (b.mul t) = ⟨0, 0⟩ := by
  constructor
  · intro h
    simp only [Vec.cross] at h
    by_cases hb : b = ⟨0, 0⟩
    · exact ⟨0, 1, by simp, by ext <;> simp [Vec.mul, Vec.add, hb]⟩
    · by_cases hbx : b.x = 0
      · have hby : b.y ≠ 0 := fun hby => hb (by ext <;> simp [hbx, hby])
        refine ⟨b.y, -a.y, by simp [hby], ?_⟩
        ext
        · simp only [Vec.mul, Vec.add]; linear_combination h
        · simp only [Vec.mul, Vec.add]; ring
      · refine ⟨b.x, -a.x, by simp [hbx], ?_⟩
        ext
        · simp only [Vec.mul, Vec.add]; ring
        · simp only [Vec.mul, Vec.add]; linear_combination -h
  · rintro ⟨s, t, hst, h⟩
    simp only [Vec.mul, Vec.add, Vec.mk.injEq] at h
    obtain ⟨h1, h2⟩ := h
    have hs : s * a.cross b = 0 := by simp only [Vec.cross]; linear_combination b.y * h1 - b.x * h2
    have ht : t * a.cross b = 0 := by simp only [Vec.cross]; linear_combination a.x * h2 - a.y * h1
    by_contra hne
    exact hst ⟨by simpa [hne] using hs, by simpa [hne] using ht⟩

end Field

/-- C02: `length()` is the non-negative root of `dot(self)`, zero exactly for the zero vector,
absolutely homogeneous, and subadditive. -/
theorem C02_length (v w : Vec ℝ) (k : ℝ) :
    0 ≤ v.length ∧ v.length ^ 2 = v.x ^ 2 + v.y ^ 2 ∧ (v.length = 0 ↔ v = ⟨0, 0⟩) ∧
    (v.mul k).length = v.length * |k| ∧ (v.add w).length ≤ v.length + w.length := by
  refine ⟨v.length_nonneg, ?_, Vec.length_eq_zero, hypot_mul _ _ _, ?_⟩
  · have := v.length_sq; simp only [Vec.dot] at this; nlinarith
  · have hv := v.length_nonneg
    have hw := w.length_nonneg
    apply le_of_sq_le_sq ?_ (by positivity)
    have h1 := v.length_sq
    have h2 := w.length_sq
    have h3 := (v.add w).length_sq
    have h4 : v.dot w ≤ v.length * w.length := by
      apply le_of_sq_le_sq ?_ (by positivity)
      have hl := C02_lagrange v w
      nlinarith [mul_self_nonneg (v.cross w)]
    have h5 : (v.add w).dot (v.add w) = v.dot v + 2 * v.dot w + w.dot w := by
      simp [Vec.dot, Vec.add]; ring
    nlinarith
where
  le_of_sq_le_sq {a b : ℝ} (h : a ^ 2 ≤ b ^ 2) (hb : 0 ≤ b) : a ≤ b := by
    nlinarith [sq_nonneg (a - b), sq_nonneg (a + b)]

/-- C02: `unit()` raises `ZeroDivisionError` exactly for the zero vector, otherwise returns the
positive multiple of `v` with length 1. -/
theorem C02_unit (v : Vec ℝ) :
    (v = ⟨0, 0⟩ → v.unit = .error .zeroDivision) ∧
    (v ≠ ⟨0, 0⟩ → ∃ u, v.unit = .ok u ∧ u.length = 1 ∧ u.mul v.length = v) := by
  constructor
  · rintro rfl; exact Vec.unit_zero
  · intro h
    have hp := Vec.length_pos h
    refine ⟨_, Vec.unit_ok h, ?_, ?_⟩
    · apply hypot_unique zero_le_one
      have := v.length_sq
      simp only [Vec.dot] at this
      field_simp
      linarith
    · ext <;> simp [Vec.mul, hp.ne']

/-- C03: `rotate` preserves `dot`, `cross` and `length`. -/
theorem C03_rotate_isometry (v w : Vec ℝ) (d : ℝ) :
    (v.rotate d).dot (w.rotate d) = v.dot w ∧ (v.rotate d).cross (w.rotate d) = v.cross w ∧
    (v.rotate d).length = v.length := by
  have hs := Real.sin_sq_add_cos_sq (radians d)
  have h1 : ∀ a b : Vec ℝ, (a.rotate d).dot (b.rotate d) = a.dot b := by
    intro a b
    simp only [Vec.rotate, Vec.dot]
    linear_combination (a.x * b.x + a.y * b.y) * hs
  refine ⟨h1 v w, ?_, ?_⟩
  · simp only [Vec.rotate, Vec.cross]
    linear_combination (v.x * w.y - v.y * w.x) * hs
  · have := h1 v v
    simp only [Vec.dot] at this
    simp only [Vec.length, hypot, this]

/-- C03: rotations add up, and a multiple of 360 degrees is the identity. -/
theorem C03_rotate_add (v : Vec ℝ) (a b : ℝ) :
    (v.rotate a).rotate b = v.rotate (a + b) := by
  ext
  · simp only [Vec.rotate, radians_add, Real.cos_add, Real.sin_add]; ring
  · simp only [Vec.rotate, radians_add, Real.cos_add, Real.sin_add]; ring

theorem C03_rotate_360 (v : Vec ℝ) (k : ℤ) : v.rotate (360 * k) = v := by
  have h : radians (360 * k) = k * (2 * π) := by simp [radians]; ring
  have hs : Real.sin (k * (2 * π)) = 0 := by
    have := Real.sin_int_mul_pi (k * 2)
    rw [← this]; push_cast; ring_nf
  ext <;> simp [Vec.rotate, h, Real.cos_int_mul_two_pi, hs]

/-- C03: rotation is counter-clockwise: 90 degrees takes (1,0) to (0,1); rotating by -90 is `normal`. -/
theorem C03_rotate_sense (v : Vec ℝ) :
    (⟨1, 0⟩ : Vec ℝ).rotate 90 = ⟨0, 1⟩ ∧ v.rotate (-90) = v.normal := by
  have h : radians 90 = π / 2 := by simp [radians]; ring
  have h' : radians (-90) = -(π / 2) := by rw [radians_neg, h]
  constructor
  · ext <;> simp [Vec.rotate, h]
  · ext <;> simp [Vec.rotate, Vec.normal, h']

/-- C03: polar round trip: the vector of length `v.length()` along the x-axis rotated by `v.angle()` is `v`,
and the angle is in (-180, 180]. -/
theorem C03_polar (v : Vec ℝ) :
    (⟨v.length, 0⟩ : Vec ℝ).rotate v.angle = v ∧ -180 < v.angle ∧ v.angle ≤ 180 := by
  have hn : ‖(⟨v.x, v.y⟩ : ℂ)‖ = v.length := by
    rw [Complex.norm_def, Complex.normSq_mk]; rfl
  have hc := Complex.norm_mul_cos_arg (⟨v.x, v.y⟩ : ℂ)
  have hs := Complex.norm_mul_sin_arg (⟨v.x, v.y⟩ : ℂ)
  rw [hn] at hc hs
  refine ⟨?_, ?_, ?_⟩
  · ext
    · simp only [Vec.rotate, Vec.angle, radians_degrees, atan2]; linarith
    · simp only [Vec.rotate, Vec.angle, radians_degrees, atan2]; linarith
  · have := Complex.neg_pi_lt_arg (⟨v.x, v.y⟩ : ℂ)
    simp only [Vec.angle, degrees, atan2]
    rw [lt_div_iff₀ Real.pi_pos]; linarith
  · have := Complex.arg_le_pi (⟨v.x, v.y⟩ : ℂ)
    simp only [Vec.angle, degrees, atan2]
    rw [div_le_iff₀ Real.pi_pos]; linarith

/-- C03: `angle` reads back a rotation: rotating the positive x-axis by `d ∈ (-180, 180]` has angle `d`. -/
theorem C03_angle_rotate (r d : ℝ) (hr : 0 < r) (h1 : -180 < d) (h2 : d ≤ 180) :
    ((⟨r, 0⟩ : Vec ℝ).rotate d).angle = d := by
  have hp := Real.pi_pos
  have key : Complex.arg ⟨cos (radians d) * r, sin (radians d) * r⟩ = radians d := by
    have := Complex.arg_mul_cos_add_sin_mul_I (r := r) (θ := radians d) hr
      ⟨by simp only [radians]; nlinarith, by simp only [radians]; nlinarith⟩
    have e : (⟨cos (radians d) * r, sin (radians d) * r⟩ : ℂ) =
        ↑r * (Complex.cos ↑(radians d) + Complex.sin ↑(radians d) * Complex.I) := by
      apply Complex.ext <;> simp [mul_comm, Complex.cos_ofReal_re, Complex.sin_ofReal_re]
    rw [e, this]
  simp only [Vec.angle, Vec.rotate, atan2, mul_zero, sub_zero, add_zero, key, degrees_radians]

-- non-vacuity
example : (⟨3, 4⟩ : Vec ℝ) ≠ ⟨0, 0⟩ := by simp
example : (⟨3, 4⟩ : Vec ℝ).length = 5 := hypot_unique (by norm_num) (by norm_num)
example : (⟨2, 4⟩ : Vec ℚ).cross ⟨1, 2⟩ = 0 ∧ (⟨1, 0⟩ : Vec ℚ).cross ⟨0, 1⟩ = 1 := by
  norm_num [Vec.cross]
example : (0 : ℝ) < 2 ∧ (-180 : ℝ) < 90 ∧ (90 : ℝ) ≤ 180 := by norm_num

end X7
