import Verif.Props.IeeeLine

/-!
C104: normalised fields with floats of finite range, infinities and NaN. `F` is any format.
-/

noncomputable section

namespace X7.Fmt
open NB
variable (F : Fmt)

/-! ### The greatest magnitude -/

theorem foldl_npMax_nan (L : List N) : L.foldl npMax .nan = .nan := by
  induction L with
  | nil => rfl
  | cons a L ih => simpa [npMax] using ih

theorem foldl_npMax_mem_nan (L : List N) (x : N) (h : .nan ∈ L) : L.foldl npMax x = .nan := by
  induction L generalizing x with
  | nil => cases h
  | cons a L ih =>
    rcases List.mem_cons.1 h with h | h
    · subst h
      have : npMax x .nan = .nan := by cases x <;> rfl
      rw [List.foldl_cons, this, foldl_npMax_nan]
    · exact ih _ h

theorem foldl_npMax_num (L : List N) (x : EReal) (h : .nan ∉ L) :
    ∃ y : EReal, L.foldl npMax (.num x) = .num y ∧ (y = x ∨ .num y ∈ L) ∧ x ≤ y ∧ ∀ z, .num z ∈ L → z ≤ y := by
  induction L generalizing x with
  | nil => exact ⟨x, rfl, .inl rfl, le_rfl, by simp⟩
  | cons a L ih =>
    cases a with
    | nan => simp at h
    | num a =>
      simp only [List.mem_cons, not_or] at h
      obtain ⟨y, h1, h2, h3, h4⟩ := ih (max x a) h.2
      refine ⟨y, h1, ?_, (le_max_left _ _).trans h3, fun z hz => ?_⟩
      · rcases h2 with h2 | h2
        · rcases max_choice x a with hm | hm
          · exact .inl (h2.trans hm)
          · exact .inr (List.mem_cons.2 (.inl (by rw [h2, hm])))
        · exact .inr (List.mem_cons_of_mem _ h2)
      · rcases List.mem_cons.1 hz with hz | hz
        · cases hz; exact (le_max_right _ _).trans h3
        · exact h4 z hz

theorem mem_cells {n : ℕ} {a : ℕ → ℕ → N} {x : N} :
    x ∈ ((List.range n).flatMap fun i => (List.range n).map fun j => a i j) ↔ ∃ i j, i < n ∧ j < n ∧ a i j = x := by
  simp only [List.mem_flatMap, List.mem_range, List.mem_map]
  constructor
  · rintro ⟨i, hi, j, hj, h⟩; exact ⟨i, j, hi, hj, h⟩
  · rintro ⟨i, j, hi, hj, h⟩; exact ⟨i, hi, j, hj, h⟩

theorem npAmax_nan {n : ℕ} {a : ℕ → ℕ → N} (h : ∃ i j, i < n ∧ j < n ∧ a i j = .nan) : npAmax n a = .nan :=
  foldl_npMax_mem_nan _ _ (mem_cells.2 h)

theorem npAmax_num {n : ℕ} (hn : 0 < n) {a : ℕ → ℕ → N} (h : ∀ i j, i < n → j < n → a i j ≠ .nan) :
    ∃ y : EReal, npAmax n a = .num y ∧ (∃ i j, i < n ∧ j < n ∧ a i j = .num y) ∧ ∀ i j z, i < n → j < n → a i j = .num z → z ≤ y := by
  obtain ⟨x, hx⟩ : ∃ x, a 0 0 = .num x := by
    cases hv : a 0 0 with
    | nan => exact absurd hv (h 0 0 hn hn)
    | num x => exact ⟨x, rfl⟩
  have hnn : .nan ∉ ((List.range n).flatMap fun i => (List.range n).map fun j => a i j) := by
    rw [mem_cells]
    rintro ⟨i, j, hi, hj, hc⟩
    exact h i j hi hj hc
  obtain ⟨y, h1, h2, -, h4⟩ := foldl_npMax_num _ x hnn
  refine ⟨y, by unfold npAmax; rw [hx]; exact h1, ?_, fun i j z hi hj hz => h4 z (mem_cells.2 ⟨i, j, hi, hj, hz⟩)⟩
  rcases h2 with h2 | h2
  · exact ⟨0, 0, hn, hn, by rw [hx, h2]⟩
  · exact mem_cells.1 h2

/-! ### Squares and sums -/

theorem mul_self_nan {a : N} : F.mul a a = .nan ↔ a = .nan := by
  cases a with
  | nan => simp [mul]
  | num a =>
    simp only [mul, reduceCtorEq, iff_false]
    have : ¬ ((a = 0 ∧ (a = ⊤ ∨ a = ⊥)) ∨ ((a = ⊤ ∨ a = ⊥) ∧ a = 0)) := by
      rintro (⟨h, h' | h'⟩ | ⟨h' | h', h⟩) <;> rw [h] at h' <;> simp at h'
    rw [if_neg this]
    split
    · simp
    · unfold toF; split
      · simp
      · split <;> simp [fin]

theorem mul_self_nonneg {a : N} (h : a ≠ .nan) : ∃ w : EReal, F.mul a a = .num w ∧ 0 ≤ w ∧ (a = .num ⊤ ∨ a = .num ⊥ → w = ⊤) := by
  cases a with
  | nan => exact absurd rfl h
  | num a =>
    by_cases h1 : a = ⊤
    · subst h1; exact ⟨⊤, by simp [mul], le_top, fun _ => rfl⟩
    · by_cases h2 : a = ⊥
      · subst h2; exact ⟨⊤, by simp [mul], le_top, fun _ => rfl⟩
      · obtain ⟨w, hw, w0, -⟩ := F.toF_nonneg (_root_.mul_self_nonneg a.toReal)
        exact ⟨w, by simp [mul, h1, h2, hw], w0, by rintro (hc | hc) <;> simp_all⟩

theorem add_nonneg' {a b : EReal} (ha : 0 ≤ a) (hb : 0 ≤ b) :
    ∃ w : EReal, F.add (.num a) (.num b) = .num w ∧ 0 ≤ w ∧ (a = ⊤ ∨ b = ⊤ → w = ⊤) := by
  have na : a ≠ ⊥ := by rintro rfl; simp at ha
  have nb : b ≠ ⊥ := by rintro rfl; simp at hb
  by_cases h : a = ⊤ ∨ b = ⊤
  · exact ⟨⊤, by simp [add, na, nb, h], le_top, fun _ => rfl⟩
  · obtain ⟨w, hw, w0, -⟩ := F.toF_nonneg (add_nonneg (EReal.toReal_nonneg ha) (EReal.toReal_nonneg hb))
    exact ⟨w, by simp [add, na, nb, h, hw], w0, fun hc => absurd hc h⟩

theorem sqrt_nonneg' {a : EReal} (ha : 0 ≤ a) : ∃ w : EReal, F.sqrt (.num a) = .num w ∧ 0 ≤ w ∧ (a = ⊤ → w = ⊤) := by
  by_cases h : a = ⊤
  · exact ⟨⊤, by simp [sqrt, h], le_top, fun _ => rfl⟩
  · obtain ⟨w, hw, w0, -⟩ := F.toF_nonneg (Real.sqrt_nonneg a.toReal)
    exact ⟨w, by simp [sqrt, h, not_lt.2 ha, hw], w0, fun hc => absurd hc h⟩

/-- The magnitude of a vector without NaN is a number, infinite if one of the squares is. -/
theorem mag_num (f : FField) (i j : ℕ) (hx : f.vx i j ≠ .nan) (hy : f.vy i j ≠ .nan) :
    ∃ w : EReal, f.mag F i j = .num w ∧ 0 ≤ w ∧
      (F.mul (f.vx i j) (f.vx i j) = .num ⊤ ∨ F.mul (f.vy i j) (f.vy i j) = .num ⊤ → w = ⊤) := by
  obtain ⟨a, ha, a0, -⟩ := F.mul_self_nonneg hx
  obtain ⟨b, hb, b0, -⟩ := F.mul_self_nonneg hy
  obtain ⟨s, hs, s0, st⟩ := F.add_nonneg' a0 b0
  obtain ⟨m, hm, m0, mt⟩ := F.sqrt_nonneg' s0
  refine ⟨m, by unfold FField.mag; rw [ha, hb, hs, hm], m0, ?_⟩
  rw [ha, hb]
  rintro (h | h)
  · exact mt (st (.inl (by cases h; rfl)))
  · exact mt (st (.inr (by cases h; rfl)))

/-! ### NaN, overflow and underflow -/

/-- C104: one NaN in a field makes every component of the normalised field NaN. -/
theorem C104_normalized_nan (f : FField) (h : ∃ i j, i < f.n ∧ j < f.n ∧ (f.vx i j = .nan ∨ f.vy i j = .nan)) :
    ∃ g, f.normalized F = .ok g ∧ ∀ i j, g.vx i j = .nan ∧ g.vy i j = .nan := by
  obtain ⟨i, j, hi, hj, h⟩ := h
  have hm : npAmax f.n (f.mag F) = .nan := by
    apply npAmax_nan
    refine ⟨i, j, hi, hj, ?_⟩
    have add_nan : ∀ a : N, F.add a .nan = .nan := fun a => by cases a <;> rfl
    unfold FField.mag
    rcases h with h | h
    · rw [h]; rfl
    · rw [h, F.mul_self_nan.2 rfl, add_nan]; rfl
  have mul_nan : ∀ a : N, F.mul a .nan = .nan := fun a => by cases a <;> rfl
  refine ⟨_, by unfold FField.normalized; rw [if_neg (by omega)], fun i j => ?_⟩
  simp only [hm, npInv, mul_nan, and_self]

/-- C104: if no component is NaN and the square of some component overflows, or is of an infinity, then the normalised field has zeros
for the finite components and NaN for the infinite ones. -/
theorem C104_normalized_overflow (f : FField) (hnn : ∀ i j, i < f.n → j < f.n → f.vx i j ≠ .nan ∧ f.vy i j ≠ .nan)
    (h : ∃ i j, i < f.n ∧ j < f.n ∧ (F.mul (f.vx i j) (f.vx i j) = .num ⊤ ∨ F.mul (f.vy i j) (f.vy i j) = .num ⊤)) :
    ∃ g, f.normalized F = .ok g ∧ ∀ i j,
      (∀ x : ℝ, f.vx i j = fin x → g.vx i j = fin 0) ∧ (∀ y : ℝ, f.vy i j = fin y → g.vy i j = fin 0) ∧
      (f.vx i j = .num ⊤ ∨ f.vx i j = .num ⊥ → g.vx i j = .nan) ∧ (f.vy i j = .num ⊤ ∨ f.vy i j = .num ⊥ → g.vy i j = .nan) := by
  obtain ⟨i, j, hi, hj, h⟩ := h
  have num : ∀ i j, i < f.n → j < f.n → f.mag F i j ≠ .nan := by
    intro i j hi hj hc
    obtain ⟨w, hw, -⟩ := F.mag_num f i j (hnn i j hi hj).1 (hnn i j hi hj).2
    rw [hw] at hc; cases hc
  obtain ⟨y, hy, -, ymax⟩ := npAmax_num (by omega : 0 < f.n) num
  obtain ⟨w, hw, -, wt⟩ := F.mag_num f i j (hnn i j hi hj).1 (hnn i j hi hj).2
  have yt : y = ⊤ := by
    have := ymax i j w hi hj hw
    rw [wt h] at this
    exact top_le_iff.1 this
  subst yt
  have fz : ∀ x : ℝ, F.mul (fin x) (fin 0) = fin 0 := fun x => by
    rw [mul_fin, mul_zero, F.toF_in (by rw [abs_zero]; exact F.maxf_pos.le), F.rnd_zero]
  have iz : ∀ a : N, a = .num ⊤ ∨ a = .num ⊥ → F.mul a (fin 0) = .nan := by
    rintro a (rfl | rfl) <;> simp [mul, fin]
  have inv : F.npInv (.num ⊤) = fin 0 := by simp [npInv]
  refine ⟨_, by unfold FField.normalized; rw [if_neg (by omega)], fun i j => ?_⟩
  simp only [hy, inv]
  exact ⟨fun x hx => by rw [hx, fz], fun x hx => by rw [hx, fz], iz _, iz _⟩

/-- A number whose rounding is zero. -/
theorem rnd_eq_zero {z : ℝ} : F.rnd z = 0 ↔ |z| ≤ 2 ^ F.emin / 2 := by
  have h := F.C104_perpendicular ⟨⟨0, 0⟩, ⟨z, 0⟩⟩ ⟨⟨0, 0⟩, ⟨0, 1⟩⟩ rfl rfl
  have h' := F.C104_parallel_iff ⟨⟨0, 0⟩, ⟨z, 0⟩⟩ ⟨⟨0, 0⟩, ⟨0, 1⟩⟩
  simp only [mul_one, zero_mul, abs_zero, F.rnd_zero] at h h'
  rw [h'] at h
  have lim := F.maxf_lt_limit
  have m0 := F.maxf_pos
  constructor
  · intro hz
    exact h.1 ⟨(F.rnd_in_iff z).1 (by rw [hz, abs_zero]; exact m0.le), by linarith, hz⟩
  · intro hz; exact (h.2 hz).2.2

/-- C104: if the squares of all components of a field of finite floats underflow to zero, then `normalized` gives no unit vectors but an
infinity for each positive component, minus infinity for each negative one and NaN for each zero. -/
theorem C104_normalized_underflow (n : ℕ) (hn : 0 < n) (a b : ℕ → ℕ → ℝ)
    (h : ∀ i j, i < n → j < n → a i j ^ 2 ≤ 2 ^ F.emin / 2 ∧ b i j ^ 2 ≤ 2 ^ F.emin / 2) :
    ∃ g, (FField.mk n (fun i j => fin (a i j)) (fun i j => fin (b i j))).normalized F = .ok g ∧ ∀ i j,
      (0 < a i j → g.vx i j = .num ⊤) ∧ (a i j < 0 → g.vx i j = .num ⊥) ∧ (a i j = 0 → g.vx i j = .nan) ∧
      (0 < b i j → g.vy i j = .num ⊤) ∧ (b i j < 0 → g.vy i j = .num ⊥) ∧ (b i j = 0 → g.vy i j = .nan) := by
  have m0 := F.maxf_pos
  have z0 : F.toF 0 = fin 0 := by rw [F.toF_in (by rw [abs_zero]; exact m0.le), F.rnd_zero]
  have sq : ∀ x : ℝ, x ^ 2 ≤ 2 ^ F.emin / 2 → F.mul (fin x) (fin x) = fin 0 := by
    intro x hx
    have : F.rnd (x * x) = 0 := F.rnd_eq_zero.2 (by rw [abs_of_nonneg (_root_.mul_self_nonneg x), ← sq]; exact hx)
    rw [mul_fin, F.toF_fin (by rw [this, abs_zero]; exact m0.le), this]
  set f := FField.mk n (fun i j => fin (a i j)) (fun i j => fin (b i j)) with hf
  have mag : ∀ i j, i < n → j < n → f.mag F i j = fin 0 := by
    intro i j hi hj
    unfold FField.mag
    simp only [hf]
    rw [sq _ (h i j hi hj).1, sq _ (h i j hi hj).2, add_fin, add_zero, z0]
    simp [Fmt.sqrt, fin, z0]
  obtain ⟨y, hy, ⟨i0, j0, hi0, hj0, hm⟩, -⟩ := npAmax_num hn (a := f.mag F) (fun i j hi hj => by rw [mag i j hi hj]; simp [fin])
  rw [mag i0 j0 hi0 hj0] at hm
  rw [← hm] at hy
  have inv : F.npInv (fin 0) = .num ⊤ := by simp [npInv, fin]
  have pos : ∀ x : ℝ, 0 < x → F.mul (fin x) (.num ⊤) = .num ⊤ := by
    intro x hx
    simp [mul, fin, hx.ne', EReal.coe_mul_top_of_pos hx]
  have ng : ∀ x : ℝ, x < 0 → F.mul (fin x) (.num ⊤) = .num ⊥ := by
    intro x hx
    simp [mul, fin, hx.ne, EReal.coe_mul_top_of_neg hx]
  have ze : ∀ x : ℝ, x = 0 → F.mul (fin x) (.num ⊤) = .nan := by
    rintro x rfl
    simp [mul, fin]
  refine ⟨_, by unfold FField.normalized; rw [if_neg (by simp only [hf]; omega)], fun i j => ?_⟩
  have hn' : npAmax f.n (f.mag F) = fin 0 := hy
  simp only [hn', inv]
  exact ⟨pos _, ng _, ze _, pos _, ng _, ze _⟩

/-! ### Where nothing of this happens -/

/-- The rounding of a number above half the smallest float is off by at most half of it, relatively. -/
theorem rnd_half (hp : 8 ≤ F.p) {z : ℝ} (hz : 2 ^ F.emin / 2 < z) : 2 ^ F.emin ≤ F.rnd z ∧ z ≤ 8 / 5 * F.rnd z ∧ F.rnd z ≤ 2 * z := by
  have e0 := F.eta_pos
  have z0 : 0 < z := by linarith
  have r0 := F.rnd_nonneg z0.le
  have hpw : (2 : ℝ) ^ (-(F.p : ℤ)) ≤ 1 / 256 := by
    calc (2 : ℝ) ^ (-(F.p : ℤ)) ≤ 2 ^ (-8 : ℤ) := zpow_le_zpow_right₀ (by norm_num) (by omega)
      _ = 1 / 256 := by norm_num
  have err := F.rnd_err z
  rw [abs_of_pos z0, abs_le] at err
  have ab := F.rnd_abs_le z
  rw [abs_of_nonneg r0, abs_of_pos z0] at ab
  have h1 : (2 : ℝ) ^ F.emin ≤ F.rnd z := by
    rcases le_total (2 ^ F.emin) z with hl | hl
    · have := F.rnd_mono hl
      rwa [F.rnd_eta] at this
    · have := F.rnd_nearest z 1 F.emin (by rw [abs_one]; exact one_lt_pow₀ (by norm_num) (by omega)) le_rfl
      push_cast at this
      rw [one_mul, abs_of_nonneg (by linarith : (0:ℝ) ≤ 2 ^ F.emin - z)] at this
      have hne : F.rnd z ≠ 0 := by
        rw [Ne, F.rnd_eq_zero, abs_of_pos z0]; linarith
      by_contra hc
      push Not at hc
      obtain ⟨k, hk⟩ : ∃ k : ℤ, F.rnd z = k * 2 ^ F.emin := by
        refine ⟨pyRound (z / 2 ^ F.last z) * 2 ^ (F.last z - F.emin).toNat, ?_⟩
        have := F.last_ge z
        unfold rnd
        push_cast
        rw [mul_assoc, ← zpow_natCast, ← zpow_add₀ (by norm_num), mul_comm]
        congr 2; omega
      rw [hk] at hc hne r0
      have k1 : (k : ℝ) < 1 := by by_contra h'; push Not at h'; nlinarith
      have k0 : (0 : ℝ) ≤ k := by by_contra h'; push Not at h'; nlinarith
      have k1' : k < 1 := by exact_mod_cast k1
      have k0' : 0 ≤ k := by exact_mod_cast k0
      have : k = 0 := by omega
      apply hne; rw [this]; simp
  refine ⟨h1, ?_, ab⟩
  have : (2 : ℝ) ^ (-(F.p : ℤ)) * z ≤ 1 / 256 * z := mul_le_mul_of_nonneg_right hpw z0.le
  nlinarith

/-- Rounding of numbers far above the smallest float is relatively precise. -/
theorem rnd_rel (hp : 8 ≤ F.p) {z : ℝ} (hz : 0 < z) (h : 2 ^ F.emin ≤ z / 128) : 99 / 100 * z ≤ F.rnd z ∧ F.rnd z ≤ 101 / 100 * z := by
  have hpw : (2 : ℝ) ^ (-(F.p : ℤ)) ≤ 1 / 256 := by
    calc (2 : ℝ) ^ (-(F.p : ℤ)) ≤ 2 ^ (-8 : ℤ) := zpow_le_zpow_right₀ (by norm_num) (by omega)
      _ = 1 / 256 := by norm_num
  have err := F.rnd_err z
  rw [abs_of_pos hz, abs_le] at err
  have : (2 : ℝ) ^ (-(F.p : ℤ)) * z ≤ 1 / 256 * z := mul_le_mul_of_nonneg_right hpw hz.le
  constructor <;> linarith

set_option maxHeartbeats 1000000 in
/-- C104: in a format with room for squares and reciprocals, as binary64 is: if the squared lengths of a field are at most a quarter of
the largest float and the square of some component does not underflow, then every component of the normalised field is a finite number
of absolute value at most 2, and some component is at least 1/3 in absolute value. -/
theorem C104_normalized (hF : F.Roomy) (n : ℕ) (a b : ℕ → ℕ → ℝ)
    (hi : ∀ i j, i < n → j < n → a i j ^ 2 + b i j ^ 2 ≤ F.maxf / 4)
    (lo : ∃ i j, i < n ∧ j < n ∧ (2 ^ F.emin / 2 < a i j ^ 2 ∨ 2 ^ F.emin / 2 < b i j ^ 2)) :
    ∃ g, ∃ u v : ℕ → ℕ → ℝ, (FField.mk n (fun i j => fin (a i j)) (fun i j => fin (b i j))).normalized F = .ok g ∧
      (∀ i j, i < n → j < n → g.vx i j = fin (u i j) ∧ g.vy i j = fin (v i j) ∧ |u i j| ≤ 2 ∧ |v i j| ≤ 2) ∧
      (∃ i j, i < n ∧ j < n ∧ (1 / 3 ≤ |u i j| ∨ 1 / 3 ≤ |v i j|)) := by
  have e0 := F.eta_pos
  have m0 := F.maxf_pos
  set η : ℝ := 2 ^ F.emin with hη
  have eM : (1 : ℝ) ≤ 2 ^ F.emax := one_le_zpow₀ (by norm_num) hF.emax0
  have p256 : (256 : ℝ) ≤ 2 ^ F.p := by
    calc (256 : ℝ) = 2 ^ 8 := by norm_num
      _ ≤ 2 ^ F.p := pow_le_pow_right₀ (by norm_num) hF.p8
  have m255 : 255 * 2 ^ F.emax ≤ F.maxf := by unfold maxf; nlinarith
  have eta16 : η ≤ 1 / 65536 := by
    calc η ≤ 2 ^ (-16 : ℤ) := zpow_le_zpow_right₀ (by norm_num) hF.emin16
      _ = 1 / 65536 := by norm_num
  -- the magnitudes
  set f := FField.mk n (fun i j => fin (a i j)) (fun i j => fin (b i j)) with hf
  let S : ℕ → ℕ → ℝ := fun i j => F.rnd (F.rnd (a i j ^ 2) + F.rnd (b i j ^ 2))
  have S0 : ∀ i j, 0 ≤ S i j := fun i j => F.rnd_nonneg (add_nonneg (F.rnd_nonneg (sq_nonneg _)) (F.rnd_nonneg (sq_nonneg _)))
  have two : ∀ z : ℝ, F.rnd (z ^ 2) ≤ 2 * z ^ 2 := fun z => by
    have := F.rnd_abs_le (z ^ 2)
    rwa [abs_of_nonneg (F.rnd_nonneg (sq_nonneg _)), abs_of_nonneg (sq_nonneg _)] at this
  have Smax : ∀ i j, i < n → j < n → S i j ≤ F.maxf := by
    intro i j hi' hj'
    have h1 := two (a i j); have h2 := two (b i j); have h3 := hi i j hi' hj'
    have h4 := F.rnd_abs_le (F.rnd (a i j ^ 2) + F.rnd (b i j ^ 2))
    rw [abs_of_nonneg (S0 i j), abs_of_nonneg (add_nonneg (F.rnd_nonneg (sq_nonneg _)) (F.rnd_nonneg (sq_nonneg _)))] at h4
    show F.rnd _ ≤ _
    linarith
  have rt : ∀ i j, i < n → j < n → √(S i j) ≤ F.maxf := by
    intro i j hi' hj'
    have h1 := Smax i j hi' hj'
    rw [Real.sqrt_le_left m0.le]
    nlinarith
  have mag : ∀ i j, i < n → j < n → f.mag F i j = fin (F.rnd (√(S i j))) := by
    intro i j hi' hj'
    have h1 := two (a i j); have h2 := two (b i j); have h3 := hi i j hi' hj'
    have r1 := F.rnd_nonneg (sq_nonneg (a i j)); have r2 := F.rnd_nonneg (sq_nonneg (b i j))
    have s1 := sq_nonneg (a i j); have s2 := sq_nonneg (b i j)
    have q1 : F.mul (fin (a i j)) (fin (a i j)) = fin (F.rnd (a i j ^ 2)) := by
      rw [mul_fin, ← sq, F.toF_in (by rw [abs_of_nonneg s1]; linarith)]
    have q2 : F.mul (fin (b i j)) (fin (b i j)) = fin (F.rnd (b i j ^ 2)) := by
      rw [mul_fin, ← sq, F.toF_in (by rw [abs_of_nonneg s2]; linarith)]
    unfold FField.mag
    simp only [hf]
    rw [q1, q2, add_fin, F.toF_in (by rw [abs_of_nonneg (by linarith)]; linarith)]
    show F.sqrt (fin (S i j)) = _
    have : ¬ ((S i j : EReal) < 0) := by simpa using S0 i j
    simp only [Fmt.sqrt, fin]
    rw [if_neg (by simp), if_neg this, EReal.toReal_coe, F.toF_in (by rw [abs_of_nonneg (Real.sqrt_nonneg _)]; exact rt i j hi' hj')]
    rfl
  obtain ⟨il, jl, hil, hjl, hlo⟩ := lo
  obtain ⟨y, hy, ⟨i0, j0, hi0, hj0, hm⟩, ymax⟩ := npAmax_num (by omega : 0 < n) (a := f.mag F)
    (fun i j hi' hj' => by rw [mag i j hi' hj']; simp [fin])
  have hM : y = ((F.rnd (√(S i0 j0)) : ℝ) : EReal) := by
    have := mag i0 j0 hi0 hj0
    rw [hm] at this
    simpa [fin] using this
  set M : ℝ := F.rnd (√(S i0 j0)) with hMdef
  have Mmax : ∀ i j, i < n → j < n → F.rnd (√(S i j)) ≤ M := by
    intro i j hi' hj'
    have := ymax i j _ hi' hj' (mag i j hi' hj')
    rw [hM] at this
    exact_mod_cast this
  -- a square that does not underflow gives a sum of at least the smallest float
  have big : ∀ i j, (η / 2 < a i j ^ 2 ∨ η / 2 < b i j ^ 2) →
      η ≤ S i j ∧ F.rnd (a i j ^ 2) + F.rnd (b i j ^ 2) ≤ 8 / 5 * S i j ∧ S i j ≤ 2 * (F.rnd (a i j ^ 2) + F.rnd (b i j ^ 2)) := by
    intro i j h
    have r1 := F.rnd_nonneg (sq_nonneg (a i j)); have r2 := F.rnd_nonneg (sq_nonneg (b i j))
    have : η / 2 < F.rnd (a i j ^ 2) + F.rnd (b i j ^ 2) := by
      rcases h with h | h
      · have := (F.rnd_half hF.p8 h).1; linarith
      · have := (F.rnd_half hF.p8 h).1; linarith
    exact F.rnd_half hF.p8 this
  have root : η ≤ √η / 128 := by
    have h1 : √η ≤ 1 / 256 := by
      rw [Real.sqrt_le_left (by norm_num)]; linarith
    have h2 : √η * √η = η := Real.mul_self_sqrt e0.le
    have h3 := Real.sqrt_pos.2 e0
    nlinarith
  have relS : ∀ i j, η ≤ S i j → 99 / 100 * √(S i j) ≤ F.rnd (√(S i j)) ∧ F.rnd (√(S i j)) ≤ 101 / 100 * √(S i j) := by
    intro i j h
    have h1 := Real.sqrt_le_sqrt h
    have h2 := Real.sqrt_pos.2 e0
    exact F.rnd_rel hF.p8 (by linarith) (by linarith)
  have sη := Real.sqrt_pos.2 e0
  have Mlo : 99 / 100 * √η ≤ M := by
    have h1 := (big il jl hlo).1
    have h2 := (relS il jl h1).1
    have h3 := Real.sqrt_le_sqrt h1
    have h4 := Mmax il jl hil hjl
    linarith
  have M0 : 0 < M := by nlinarith
  -- the place of the maximum
  have big0 : η / 2 < a i0 j0 ^ 2 ∨ η / 2 < b i0 j0 ^ 2 := by
    by_contra hc
    push Not at hc
    have z1 : F.rnd (a i0 j0 ^ 2) = 0 := F.rnd_eq_zero.2 (by rw [abs_of_nonneg (sq_nonneg _)]; exact hc.1)
    have z2 : F.rnd (b i0 j0 ^ 2) = 0 := F.rnd_eq_zero.2 (by rw [abs_of_nonneg (sq_nonneg _)]; exact hc.2)
    have : M = 0 := by
      rw [hMdef]
      show F.rnd (√(F.rnd (F.rnd (a i0 j0 ^ 2) + F.rnd (b i0 j0 ^ 2)))) = 0
      rw [z1, z2, add_zero, F.rnd_zero, Real.sqrt_zero, F.rnd_zero]
    linarith
  obtain ⟨B1, B2, B3⟩ := big i0 j0 big0
  obtain ⟨R1, R2⟩ := relS i0 j0 B1
  rw [← hMdef] at R1 R2
  -- the reciprocal
  have inv1 : 1 / M ≤ F.maxf := by
    have h1 : 1 ≤ √η * 2 ^ F.emax := by
      have h2 : (√η * 2 ^ F.emax) ^ 2 = 2 ^ (F.emin + 2 * F.emax) := by
        rw [mul_pow, Real.sq_sqrt e0.le, hη, zpow_add₀ (by norm_num), mul_comm (2 : ℤ), zpow_mul]
        norm_cast
      have h3 : (1 : ℝ) ≤ 2 ^ (F.emin + 2 * F.emax) := one_le_zpow₀ (by norm_num) (by have := hF.inv; omega)
      rw [← h2] at h3
      by_contra hc
      push Not at hc
      have : 0 < √η * 2 ^ F.emax := by positivity
      nlinarith
    rw [div_le_iff₀ M0]
    nlinarith
  have inv2 : η ≤ 1 / M / 128 := by
    have h1 : η * √(S i0 j0) ≤ 1 / 256 := by
      have h2 : (η * √(S i0 j0)) ^ 2 ≤ 1 / 65536 := by
        rw [mul_pow, Real.sq_sqrt (S0 i0 j0)]
        have h3 : S i0 j0 ≤ 2 ^ F.p * 2 ^ F.emax := by
          have := Smax i0 j0 hi0 hj0
          unfold maxf at this; nlinarith
        calc η ^ 2 * S i0 j0 ≤ η ^ 2 * (2 ^ F.p * 2 ^ F.emax) := mul_le_mul_of_nonneg_left h3 (sq_nonneg _)
          _ = 2 ^ (2 * F.emin + F.p + F.emax) := by
            rw [hη, zpow_add₀ (by norm_num), zpow_add₀ (by norm_num), mul_comm (2 : ℤ), zpow_mul]
            norm_cast
            ring
          _ ≤ 2 ^ (-16 : ℤ) := zpow_le_zpow_right₀ (by norm_num) hF.low
          _ = 1 / 65536 := by norm_num
      have : 0 ≤ η * √(S i0 j0) := by positivity
      nlinarith
    rw [div_div, le_div_iff₀ (by positivity)]
    nlinarith
  have invpos : 0 < 1 / M := by positivity
  obtain ⟨I1, I2⟩ := F.rnd_rel hF.p8 invpos inv2
  set c : ℝ := F.rnd (1 / M) with hc
  have hinv : F.npInv (fin M) = fin c := by
    simp only [npInv, fin]
    rw [if_neg (by simpa using M0.ne'), if_neg (by simp), EReal.toReal_coe, F.toF_in (by rw [abs_of_pos invpos]; exact inv1)]
    rfl
  have c0 : 0 < c := by linarith
  have cM : c * M ≤ 101 / 100 := by
    have := mul_le_mul_of_nonneg_right I2 M0.le
    rwa [mul_assoc, one_div, inv_mul_cancel₀ M0.ne', mul_one] at this
  have cM' : 99 / 100 ≤ c * M := by
    have := mul_le_mul_of_nonneg_right I1 M0.le
    rwa [mul_assoc, one_div, inv_mul_cancel₀ M0.ne', mul_one] at this
  -- upper bound of a component
  have up : ∀ i j, i < n → j < n → ∀ z : ℝ, z = a i j ∨ z = b i j → |z| ≤ 17 / 10 * M := by
    intro i j hi' hj' z hz
    have key : z ^ 2 ≤ (17 / 10 * M) ^ 2 := by
      by_cases hs : z ^ 2 ≤ η / 2
      · have h2 : √η * √η = η := Real.mul_self_sqrt e0.le
        nlinarith
      · push Not at hs
        have r1 := F.rnd_nonneg (sq_nonneg (a i j)); have r2 := F.rnd_nonneg (sq_nonneg (b i j))
        have h1 := (F.rnd_half hF.p8 hs).2.1
        have h2 : η / 2 < a i j ^ 2 ∨ η / 2 < b i j ^ 2 := by rcases hz with rfl | rfl; exacts [.inl hs, .inr hs]
        obtain ⟨b1, b2, -⟩ := big i j h2
        have h3 : F.rnd (z ^ 2) ≤ F.rnd (a i j ^ 2) + F.rnd (b i j ^ 2) := by rcases hz with rfl | rfl <;> linarith
        have h4 := (relS i j b1).1
        have h5 := Mmax i j hi' hj'
        have h6 : √(S i j) * √(S i j) = S i j := Real.mul_self_sqrt (S0 i j)
        have h7 := Real.sqrt_nonneg (S i j)
        have h8 : (99 / 100 * √(S i j)) * (99 / 100 * √(S i j)) ≤ M * M := mul_le_mul (h4.trans h5) (h4.trans h5) (by positivity) M0.le
        nlinarith
    exact abs_le_of_sq_le_sq' key (by positivity) |> abs_le.2
  have prod : ∀ z : ℝ, |z| ≤ 17 / 10 * M → F.mul (fin z) (fin c) = fin (F.rnd (z * c)) ∧ |F.rnd (z * c)| ≤ 2 := by
    intro z hz
    have h1 : |z * c| ≤ 172 / 100 := by
      rw [abs_mul, abs_of_pos c0]
      nlinarith [mul_le_mul_of_nonneg_right hz c0.le]
    have hpw : (2 : ℝ) ^ (-(F.p : ℤ)) ≤ 1 / 256 := by
      calc (2 : ℝ) ^ (-(F.p : ℤ)) ≤ 2 ^ (-8 : ℤ) := zpow_le_zpow_right₀ (by norm_num) (by have := hF.p8; omega)
        _ = 1 / 256 := by norm_num
    have err := F.rnd_err (z * c)
    have h2 : (2 : ℝ) ^ (-(F.p : ℤ)) * |z * c| ≤ 1 / 256 * (172 / 100) := mul_le_mul hpw h1 (abs_nonneg _) (by norm_num)
    refine ⟨by rw [mul_fin, F.toF_in (by linarith)], ?_⟩
    have := abs_sub_abs_le_abs_sub (F.rnd (z * c)) (z * c)
    linarith
  have low : ∀ z : ℝ, S i0 j0 / 4 ≤ F.rnd (z ^ 2) → 1 / 3 ≤ |F.rnd (z * c)| := by
    intro z hz
    have h1 := two z
    have h6 : √(S i0 j0) * √(S i0 j0) = S i0 j0 := Real.mul_self_sqrt (S0 i0 j0)
    have h7 := Real.sqrt_nonneg (S i0 j0)
    have h8 : M * M ≤ (101 / 100 * √(S i0 j0)) * (101 / 100 * √(S i0 j0)) := mul_le_mul R2 R2 M0.le (by positivity)
    have h9 : (35 / 100 * M) ^ 2 ≤ z ^ 2 := by nlinarith
    have h10 : 35 / 100 * M ≤ |z| := by
      have := sq_le_sq.1 h9
      rwa [abs_of_pos (by positivity)] at this
    have h11 : 346 / 1000 ≤ |z * c| := by
      rw [abs_mul, abs_of_pos c0]
      nlinarith [mul_le_mul_of_nonneg_right h10 c0.le]
    have pos : 0 < |z * c| := by linarith
    have h12 := (F.rnd_rel hF.p8 pos (by linarith)).1
    have h13 : |F.rnd (z * c)| = F.rnd |z * c| := by
      rcases le_total 0 (z * c) with h | h
      · rw [abs_of_nonneg h, abs_of_nonneg (F.rnd_nonneg h)]
      · rw [abs_of_nonpos h, F.rnd_neg, abs_of_nonpos]
        have := F.rnd_nonneg (neg_nonneg.2 h)
        rw [F.rnd_neg] at this; linarith
    rw [h13]; linarith
  refine ⟨_, fun i j => F.rnd (a i j * c), fun i j => F.rnd (b i j * c), by
    unfold FField.normalized; rw [if_neg (by simp only [hf]; omega)], fun i j hi' hj' => ?_, i0, j0, hi0, hj0, ?_⟩
  · have hn' : npAmax f.n (f.mag F) = fin M := by rw [show f.n = n from rfl, hy, hM]; rfl
    have p1 := prod _ (up i j hi' hj' _ (.inl rfl))
    have p2 := prod _ (up i j hi' hj' _ (.inr rfl))
    simp only [hn', hinv]
    exact ⟨p1.1, p2.1, p1.2, p2.2⟩
  · rcases le_total (F.rnd (a i0 j0 ^ 2)) (F.rnd (b i0 j0 ^ 2)) with h | h
    · exact .inr (low _ (by linarith))
    · exact .inl (low _ (by linarith))

/-- Python's floats have the room. -/
theorem roomy_double : Fmt.double.Roomy := by constructor <;> norm_num [Fmt.double]

/-- The hypotheses can be met: a field of one vector (3, 4). -/
example : ∃ g, ∃ u v : ℕ → ℕ → ℝ, (FField.mk 1 (fun _ _ => fin 3) (fun _ _ => fin 4)).normalized Fmt.double = .ok g ∧
    g.vx 0 0 = fin (u 0 0) ∧ g.vy 0 0 = fin (v 0 0) := by
  have hm : (100 : ℝ) ≤ Fmt.double.maxf := by
    have e : (1 : ℝ) ≤ 2 ^ Fmt.double.emax := one_le_zpow₀ (by norm_num) (by norm_num [Fmt.double])
    have p : (2 : ℝ) ^ Fmt.double.p = 9007199254740992 := by norm_num [Fmt.double]
    unfold maxf; rw [p]; nlinarith
  have he : (2 : ℝ) ^ Fmt.double.emin ≤ 1 := zpow_le_one_of_nonpos₀ (by norm_num) (by norm_num [Fmt.double])
  obtain ⟨g, u, v, h1, h2, -⟩ := C104_normalized Fmt.double roomy_double 1 (fun _ _ => 3) (fun _ _ => 4)
    (fun _ _ _ _ => by norm_num; linarith) ⟨0, 0, by norm_num, by norm_num, .inl (by linarith)⟩
  exact ⟨g, u, v, h1, (h2 0 0 one_pos one_pos).1, (h2 0 0 one_pos one_pos).2.1⟩

end X7.Fmt
