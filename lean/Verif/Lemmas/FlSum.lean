import Verif.Lemmas.FlVec

/-!
Rounding to `p` binary digits: the error of an addition is itself a float, and the compensation of `sum` (from Python 3.12) finds it.
-/

namespace X7

/-- The floats are the numbers with at most `p` digits. -/
theorem rep_iff (p : ℕ) (hp : 1 ≤ p) (x : ℝ) : flBin p x = x ↔ ∃ n k : ℤ, |n| ≤ 2 ^ p ∧ x = n * 2 ^ k := by
  constructor
  · intro h
    by_cases hx : x = 0
    · exact ⟨0, 0, by simp, by simp [hx]⟩
    · refine ⟨pyRound (x / ulp p x), Int.log 2 |x| - p + 1, abs_pyRound_le (abs_div_ulp p x), ?_⟩
      conv_lhs => rw [← h]
      unfold flBin
      rw [if_neg hx, mul_comm]
      rfl
  · rintro ⟨n, k, hn, rfl⟩
    exact flBin_rep p hp n k hn

/-- No whole number is nearer than the rounded one. -/
theorem pyRound_nearest (y : ℝ) (n : ℤ) : |(pyRound y : ℝ) - y| ≤ |(n : ℝ) - y| := by
  by_contra hc
  push Not at hc
  have h1 := (isRound_pyRound y).1
  rw [abs_sub_comm] at h1
  have h2 : |((n - pyRound y : ℤ) : ℝ)| < 1 := by
    push_cast
    have e : (n : ℝ) - pyRound y = ((n : ℝ) - y) - (pyRound y - y) := by ring
    rw [e]
    have := abs_sub ((n : ℝ) - y) (pyRound y - y)
    linarith
  have h3 : n - pyRound y = 0 := by
    have : |n - pyRound y| < 1 := by exact_mod_cast h2
    exact abs_eq_zero.1 (by have := abs_nonneg (n - pyRound y); omega)
  have : n = pyRound y := by omega
  rw [this] at hc
  exact lt_irrefl _ hc

/-- A float that is not small is a multiple of a large power of two. -/
theorem rep_grid (p : ℕ) (hp : 1 ≤ p) {a : ℝ} (ha : flBin p a = a) {k : ℤ} (h : (2 : ℝ) ^ (k + p - 1) ≤ |a|) : ∃ z : ℤ, a = z * 2 ^ k := by
  obtain ⟨n, j, hn, rfl⟩ := (rep_iff p hp a).1 ha
  have h2 : (0 : ℝ) < 2 ^ j := by positivity
  rw [abs_mul, abs_of_pos h2] at h
  have h3 : |(n : ℝ)| ≤ 2 ^ p := by exact_mod_cast hn
  have h4 : (2 : ℝ) ^ (k + p - 1) ≤ 2 ^ (p + j) := by
    rw [zpow_add₀ (by norm_num), zpow_natCast]
    exact h.trans (by gcongr)
  rw [zpow_le_zpow_iff_right₀ (by norm_num)] at h4
  rcases lt_or_ge j k with hlt | hge
  · have hj : j = k - 1 := by omega
    subst hj
    have h5 : (2 : ℝ) ^ p ≤ |(n : ℝ)| := by
      have : (2 : ℝ) ^ (k + p - 1) = 2 ^ p * 2 ^ (k - 1) := by
        rw [← zpow_natCast, ← zpow_add₀ (by norm_num)]; congr 1; ring
      rw [this] at h
      exact le_of_mul_le_mul_right h h2
    have h6 : |n| = 2 ^ p := le_antisymm hn (by exact_mod_cast h5)
    obtain ⟨q, rfl⟩ : ∃ q, p = q + 1 := ⟨p - 1, by omega⟩
    have e : (2 : ℝ) ^ k = 2 * 2 ^ (k - 1) := by
      rw [← zpow_one_add₀ (by norm_num)]; congr 1; ring
    rcases abs_choice n with hc | hc <;> rw [hc] at h6
    · refine ⟨2 ^ q, ?_⟩
      rw [e, h6]; push_cast; ring
    · refine ⟨-2 ^ q, ?_⟩
      rw [e, show n = -2 ^ (q + 1) by omega]; push_cast; ring
  · obtain ⟨m, rfl⟩ : ∃ m : ℕ, j = k + m := ⟨(j - k).toNat, by omega⟩
    refine ⟨n * 2 ^ m, ?_⟩
    rw [zpow_add₀ (by norm_num), zpow_natCast]; push_cast; ring

/-- No float is nearer than the rounded one. -/
theorem flBin_nearest (p : ℕ) (hp : 1 ≤ p) (x a : ℝ) (ha : flBin p a = a) : |flBin p x - x| ≤ |a - x| := by
  by_cases hx : x = 0
  · rw [hx, flBin_zero]; simp
  have hu := ulp_pos p x
  have e1 : |flBin p x - x| = ulp p x * |(pyRound (x / ulp p x) : ℝ) - x / ulp p x| := by
    unfold flBin
    rw [if_neg hx, ← abs_of_pos hu, ← abs_mul, abs_of_pos hu]
    congr 1
    field_simp
  have hint : ∀ z : ℤ, |flBin p x - x| ≤ |z * ulp p x - x| := by
    intro z
    rw [e1]
    have e2 : |z * ulp p x - x| = ulp p x * |(z : ℝ) - x / ulp p x| := by
      conv_rhs => rw [← abs_of_pos hu, ← abs_mul, abs_of_pos hu]
      congr 1
      field_simp
    rw [e2]
    exact mul_le_mul_of_nonneg_left (pyRound_nearest _ _) hu.le
  rcases le_or_gt ((2 : ℝ) ^ ((Int.log 2 |x| - p + 1) + p - 1)) |a| with h | h
  · obtain ⟨z, hz⟩ := rep_grid p hp ha h
    rw [hz]
    exact hint z
  · -- a power of two lies between
    have e3 : (Int.log 2 |x| - p + 1) + p - 1 = Int.log 2 |x| := by ring
    rw [e3] at h
    have hl := log_le hx
    obtain ⟨q, rfl⟩ : ∃ q, p = q + 1 := ⟨p - 1, by omega⟩
    have e4 : (2 : ℝ) ^ Int.log 2 |x| = (2 ^ q : ℤ) * ulp (q + 1) x := by
      unfold ulp
      push_cast
      rw [← zpow_natCast, ← zpow_add₀ (by norm_num)]; congr 1; ring
    rcases lt_or_gt_of_ne hx with hneg | hpos
    · refine (hint (-2 ^ q)).trans ?_
      rw [Int.cast_neg, neg_mul, ← e4]
      rw [abs_of_neg hneg] at hl
      rw [abs_of_nonneg (by rw [abs_of_neg hneg]; linarith)]
      rw [abs_lt] at h
      rw [le_abs]
      left
      linarith [h.1]
    · refine (hint (2 ^ q)).trans ?_
      rw [← e4]
      rw [abs_of_pos hpos] at hl
      rw [abs_of_nonpos (by rw [abs_of_pos hpos]; linarith)]
      rw [abs_lt] at h
      rw [le_abs]
      right
      linarith [h.2]

/-- Rounding stays on a grid. -/
theorem flBin_grid (p : ℕ) (hp : 1 ≤ p) (N e : ℤ) : ∃ M : ℤ, flBin p (N * 2 ^ e) = M * 2 ^ e := by
  set x : ℝ := N * 2 ^ e with hx
  by_cases h0 : x = 0
  · exact ⟨0, by rw [h0, flBin_zero]; simp⟩
  by_cases hk : e ≤ Int.log 2 |x| - p + 1
  · obtain ⟨m, hm⟩ : ∃ m : ℕ, Int.log 2 |x| - p + 1 = e + m := ⟨(Int.log 2 |x| - p + 1 - e).toNat, by omega⟩
    refine ⟨pyRound (x / ulp p x) * 2 ^ m, ?_⟩
    unfold flBin
    rw [if_neg h0]
    conv_lhs => lhs; unfold ulp
    rw [hm, zpow_add₀ (by norm_num), zpow_natCast]
    push_cast
    ring
  · refine ⟨N, ?_⟩
    apply flBin_rep p hp
    have h2 : (0 : ℝ) < 2 ^ e := by positivity
    have h1 := lt_log x
    have h3 : |(N : ℝ)| * 2 ^ e ≤ 2 ^ p * 2 ^ e := by
      rw [← abs_of_pos h2, ← abs_mul, abs_of_pos h2, ← hx]
      refine h1.le.trans ?_
      rw [← zpow_natCast, ← zpow_add₀ (by norm_num), zpow_le_zpow_iff_right₀ (by norm_num)]
      omega
    have := le_of_mul_le_mul_right h3 h2
    exact_mod_cast this

/-- Two floats, the second not larger: they lie on the grid of the second. -/
theorem common_grid (p : ℕ) (hp : 1 ≤ p) {a b : ℝ} (ha : flBin p a = a) (hb : flBin p b = b) (h : |b| ≤ |a|) :
    ∃ (m n e : ℤ), a = m * 2 ^ e ∧ b = n * 2 ^ e ∧ |n| ≤ 2 ^ p ∧ (2 ∣ m ∨ |m| ≤ 2 ^ p) := by
  obtain ⟨m, i, hm, rfl⟩ := (rep_iff p hp a).1 ha
  obtain ⟨n, j, hn, rfl⟩ := (rep_iff p hp b).1 hb
  rcases le_or_gt j i with hij | hij
  · obtain ⟨d, rfl⟩ : ∃ d : ℕ, i = j + d := ⟨(i - j).toNat, by omega⟩
    refine ⟨m * 2 ^ d, n, j, ?_, rfl, hn, ?_⟩
    · rw [zpow_add₀ (by norm_num), zpow_natCast]; push_cast; ring
    · cases d with
      | zero => right; simpa using hm
      | succ d => left; exact Dvd.intro_left (m * 2 ^ d) (by ring)
  · obtain ⟨d, rfl⟩ : ∃ d : ℕ, j = i + d := ⟨(j - i).toNat, by omega⟩
    have e : (n : ℝ) * 2 ^ (i + d : ℤ) = ((n * 2 ^ d : ℤ) : ℝ) * 2 ^ i := by
      rw [zpow_add₀ (by norm_num), zpow_natCast]; push_cast; ring
    refine ⟨m, n * 2 ^ d, i, rfl, e, ?_, .inr hm⟩
    rw [e, abs_mul, abs_mul] at h
    have h2 : (0 : ℝ) < |2 ^ i| := by positivity
    have := le_of_mul_le_mul_right h h2
    have h3 : |n * 2 ^ d| ≤ |m| := by exact_mod_cast this
    exact h3.trans hm

/-- The error of an addition is a float. -/
theorem add_error_rep (p : ℕ) (hp : 1 ≤ p) {a b : ℝ} (ha : flBin p a = a) (hb : flBin p b = b) (h : |b| ≤ |a|) :
    flBin p (a + b - flBin p (a + b)) = a + b - flBin p (a + b) := by
  have hn := flBin_nearest p hp (a + b) a ha
  obtain ⟨m, n, e, rfl, rfl, hb', -⟩ := common_grid p hp ha hb h
  obtain ⟨M, hM⟩ := flBin_grid p hp (m + n) e
  have e1 : (m : ℝ) * 2 ^ e + n * 2 ^ e = ((m + n : ℤ) : ℝ) * 2 ^ e := by push_cast; ring
  rw [e1, hM] at hn ⊢
  have h2 : (0 : ℝ) < 2 ^ e := by positivity
  have e2 : ((m + n : ℤ) : ℝ) * 2 ^ e - M * 2 ^ e = ((m + n - M : ℤ) : ℝ) * 2 ^ e := by push_cast; ring
  rw [e2]
  apply flBin_rep p hp
  have e3 : (M : ℝ) * 2 ^ e - ((m + n : ℤ) : ℝ) * 2 ^ e = -(((m + n - M : ℤ) : ℝ) * 2 ^ e) := by push_cast; ring
  have e4 : (m : ℝ) * 2 ^ e - ((m + n : ℤ) : ℝ) * 2 ^ e = -((n : ℝ) * 2 ^ e) := by push_cast; ring
  rw [e3, e4, abs_neg, abs_neg, abs_mul, abs_mul] at hn
  have := le_of_mul_le_mul_right hn (by positivity : (0 : ℝ) < |2 ^ e|)
  have h3 : |m + n - M| ≤ |n| := by exact_mod_cast this
  exact h3.trans hb'

/-- What is left of the rounded sum after the larger number is taken off is a float. -/
theorem add_back_rep (p : ℕ) (hp : 1 ≤ p) {a b : ℝ} (ha : flBin p a = a) (hb : flBin p b = b) (h : |b| ≤ |a|) :
    flBin p (a - flBin p (a + b)) = a - flBin p (a + b) := by
  have hn := flBin_nearest p hp (a + b) a ha
  obtain ⟨m, n, e, rfl, rfl, hb', hm⟩ := common_grid p hp ha hb h
  have h2 : (0 : ℝ) < 2 ^ e := by positivity
  have e1 : (m : ℝ) * 2 ^ e + n * 2 ^ e = ((m + n : ℤ) : ℝ) * 2 ^ e := by push_cast; ring
  rw [e1] at hn ⊢
  by_cases hs : |m + n| ≤ 2 ^ p
  · rw [flBin_rep p hp _ _ hs]
    have : (m : ℝ) * 2 ^ e - ((m + n : ℤ) : ℝ) * 2 ^ e = ((-n : ℤ) : ℝ) * 2 ^ e := by push_cast; ring
    rw [this]
    exact flBin_rep p hp _ _ (by rwa [abs_neg])
  · push Not at hs
    -- the rounded sum lies on the next coarser grid
    have hbig : (2 : ℝ) ^ ((e + 1) + p - 1) ≤ |flBin p (((m + n : ℤ) : ℝ) * 2 ^ e)| := by
      have h3 : |((m + n : ℤ) : ℝ) * 2 ^ e| = (|m + n| : ℤ) * 2 ^ e := by rw [abs_mul, abs_of_pos h2]; push_cast; rfl
      have h4 : (2 : ℝ) ^ ((e + 1) + p - 1) = ((2 ^ p : ℤ) : ℝ) * 2 ^ e := by
        push_cast; rw [← zpow_natCast, ← zpow_add₀ (by norm_num)]; congr 1; ring
      rw [h4]
      have h5 : flBin p (((2 ^ p : ℤ) : ℝ) * 2 ^ e) = ((2 ^ p : ℤ) : ℝ) * 2 ^ e := flBin_rep p hp _ _ (by simp)
      have h6 : ((2 ^ p : ℤ) : ℝ) * 2 ^ e ≤ |((m + n : ℤ) : ℝ) * 2 ^ e| := by
        rw [h3]; gcongr
      rcases abs_choice (((m + n : ℤ) : ℝ) * 2 ^ e) with hc | hc <;> rw [hc] at h6
      · have := flBin_mono p hp _ _ h6
        rw [h5] at this
        exact this.trans (le_abs_self _)
      · have := flBin_mono p hp _ _ h6
        rw [h5, flBin_neg] at this
        exact this.trans (neg_le_abs _)
    obtain ⟨z, hz⟩ := rep_grid p hp (flBin_idem p hp _) hbig
    have e5 : (2 : ℝ) ^ (e + 1) = 2 * 2 ^ e := by rw [zpow_add_one₀ (by norm_num)]; ring
    have hs1 : flBin p (((m + n : ℤ) : ℝ) * 2 ^ e) = ((2 * z : ℤ) : ℝ) * 2 ^ e := by rw [hz, e5]; push_cast; ring
    rw [hs1] at hn ⊢
    -- |2 z - (m + n)| ≤ |n|
    have hd : |2 * z - (m + n)| ≤ |n| := by
      have e3 : ((2 * z : ℤ) : ℝ) * 2 ^ e - ((m + n : ℤ) : ℝ) * 2 ^ e = ((2 * z - (m + n) : ℤ) : ℝ) * 2 ^ e := by push_cast; ring
      have e4 : (m : ℝ) * 2 ^ e - ((m + n : ℤ) : ℝ) * 2 ^ e = ((-n : ℤ) : ℝ) * 2 ^ e := by push_cast; ring
      rw [e3, e4, abs_mul, abs_mul] at hn
      have := le_of_mul_le_mul_right hn (by positivity : (0 : ℝ) < |2 ^ e|)
      have h3 : |2 * z - (m + n)| ≤ |-n| := by exact_mod_cast this
      rwa [abs_neg] at h3
    have e6 : (m : ℝ) * 2 ^ e - ((2 * z : ℤ) : ℝ) * 2 ^ e = ((m - 2 * z : ℤ) : ℝ) * 2 ^ e := by push_cast; ring
    rw [e6]
    have hle : |m - 2 * z| ≤ 2 * 2 ^ p := by
      have e7 : m - 2 * z = -(2 * z - (m + n)) - n := by ring
      have := abs_sub (-(2 * z - (m + n))) n
      rw [abs_neg, ← e7] at this
      omega
    rcases hm with ⟨m', rfl⟩ | hm
    · have e8 : ((2 * m' - 2 * z : ℤ) : ℝ) * 2 ^ e = ((m' - z : ℤ) : ℝ) * 2 ^ (e + 1) := by rw [e5]; push_cast; ring
      rw [e8]
      apply flBin_rep p hp
      have e9 : (2 * m' - 2 * z : ℤ) = 2 * (m' - z) := by ring
      rw [e9, abs_mul] at hle
      simp only [Nat.abs_ofNat] at hle
      omega
    · apply flBin_rep p hp
      -- the error is at most one unit of the fine grid, and none if the sum is even
      have hnm : |n| ≤ |m| := by
        rw [abs_mul, abs_mul] at h
        have := le_of_mul_le_mul_right h (by positivity : (0 : ℝ) < |2 ^ e|)
        exact_mod_cast this
      have hnear : ∀ w : ℤ, |2 * w| ≤ 2 * 2 ^ p → |2 * z - (m + n)| ≤ |2 * w - (m + n)| := by
        intro w hw
        have hrep : flBin p (((2 * w : ℤ) : ℝ) * 2 ^ e) = ((2 * w : ℤ) : ℝ) * 2 ^ e := by
          have e8 : ((2 * w : ℤ) : ℝ) * 2 ^ e = (w : ℝ) * 2 ^ (e + 1) := by rw [e5]; push_cast; ring
          rw [e8]
          apply flBin_rep p hp
          rw [abs_mul] at hw
          simp only [Nat.abs_ofNat] at hw
          omega
        have h7 := flBin_nearest p hp (((m + n : ℤ) : ℝ) * 2 ^ e) _ hrep
        rw [hs1] at h7
        have e3 : ∀ v : ℤ, ((2 * v : ℤ) : ℝ) * 2 ^ e - ((m + n : ℤ) : ℝ) * 2 ^ e = ((2 * v - (m + n) : ℤ) : ℝ) * 2 ^ e := by
          intro v; push_cast; ring
        rw [e3, e3, abs_mul, abs_mul] at h7
        have := le_of_mul_le_mul_right h7 (by positivity : (0 : ℝ) < |2 ^ e|)
        exact_mod_cast this
      generalize (2 : ℤ) ^ p = P at *
      rcases Int.emod_two_eq_zero_or_one (m + n) with hpar | hpar
      · have h8 := hnear ((m + n) / 2) (by rw [show 2 * ((m + n) / 2) = m + n by omega]; have := abs_add_le m n; omega)
        rw [show 2 * ((m + n) / 2) = m + n by omega] at h8
        simp only [sub_self, abs_zero] at h8
        have : 2 * z - (m + n) = 0 := abs_eq_zero.1 (le_antisymm h8 (abs_nonneg _))
        rw [show m - 2 * z = -n by omega, abs_neg]
        exact hb'
      · rcases le_or_gt 0 (m + n) with h0 | h0
        · have h8 := hnear ((m + n - 1) / 2) (by
            rw [show 2 * ((m + n - 1) / 2) = m + n - 1 by omega]
            have := abs_add_le m n
            rw [abs_of_nonneg h0] at hs this
            rw [abs_of_nonneg (by omega)]
            omega)
          rw [show 2 * ((m + n - 1) / 2) = m + n - 1 by omega, show m + n - 1 - (m + n) = -1 by ring] at h8
          norm_num at h8
          rw [abs_of_nonneg h0] at hs
          simp only [abs_le] at *
          have : n ≠ m := by omega
          rcases abs_cases n with hn' | hn' <;> rcases abs_cases m with hm' | hm' <;> constructor <;> omega
        · have h8 := hnear ((m + n + 1) / 2) (by
            rw [show 2 * ((m + n + 1) / 2) = m + n + 1 by omega]
            have := abs_add_le m n
            rw [abs_of_neg h0] at hs this
            rw [abs_of_nonpos (by omega)]
            omega)
          rw [show 2 * ((m + n + 1) / 2) = m + n + 1 by omega, show m + n + 1 - (m + n) = 1 by ring] at h8
          norm_num at h8
          rw [abs_of_neg h0] at hs
          simp only [abs_le] at *
          have : n ≠ m := by omega
          rcases abs_cases n with hn' | hn' <;> rcases abs_cases m with hm' | hm' <;> constructor <;> omega

end X7
