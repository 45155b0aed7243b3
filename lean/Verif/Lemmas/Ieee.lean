import Mathlib.Tactic.Linarith
import Mathlib.Tactic.Ring
import Mathlib.Tactic.FieldSimp
import Mathlib.Tactic.Positivity
import Mathlib.Tactic.NormNum
import Verif.Lemmas.Rnd
import Verif.Spec.Ieee

/-! Rounding to a finite range: monotone, to the nearest float, exact where it can be. -/

noncomputable section

namespace X7.Fmt
open NB
variable (F : Fmt)

theorem rnd_zero : F.rnd 0 = 0 := by
  have : pyRound (0 : ℝ) = 0 := by exact_mod_cast pyRound_int 0
  simp [rnd, this]

theorem rnd_neg (x : ℝ) : F.rnd (-x) = -F.rnd x := by
  have : F.last (-x) = F.last x := by simp [last]
  unfold rnd
  rw [this, neg_div, pyRound_neg]; push_cast; ring

theorem rnd_big {x : ℝ} (h : F.tiny ≤ |x|) : F.rnd x = flBin F.p x := by
  have ht : (0 : ℝ) < F.tiny := by unfold tiny; positivity
  have hx : x ≠ 0 := by rintro rfl; simp at h; linarith
  have : F.last x = Int.log 2 |x| - F.p + 1 := by
    unfold last
    apply max_eq_right
    have h1 : (2 : ℝ) ^ (F.emin + F.p - 1) < 2 ^ (Int.log 2 |x| + 1) := lt_of_le_of_lt h (lt_log x)
    rw [zpow_lt_zpow_iff_right₀ (by norm_num)] at h1
    omega
  unfold rnd flBin
  rw [if_neg hx, this]; rfl

theorem rnd_small {x : ℝ} (h : |x| < 2 * F.tiny) : F.rnd x = 2 ^ F.emin * pyRound (x / 2 ^ F.emin) := by
  by_cases hx : x = 0
  · subst hx
    have : pyRound (0 : ℝ) = 0 := by exact_mod_cast pyRound_int 0
    rw [rnd_zero]; simp [this]
  have : F.last x = F.emin := by
    unfold last
    apply max_eq_left
    have h1 : (2 : ℝ) ^ (Int.log 2 |x|) < 2 ^ (F.emin + F.p - 1 + 1) := by
      refine lt_of_le_of_lt (log_le hx) (lt_of_lt_of_le h (le_of_eq ?_))
      rw [zpow_add_one₀ (by norm_num)]; unfold tiny; ring
    rw [zpow_lt_zpow_iff_right₀ (by norm_num)] at h1
    omega
  unfold rnd
  rw [this]

theorem tiny_pos : 0 < F.tiny := by unfold tiny; positivity

theorem tiny_eq : F.tiny = ((2 ^ (F.p - 1) : ℤ) : ℝ) * 2 ^ F.emin := by
  unfold tiny
  push_cast
  rw [← zpow_natCast, ← zpow_add₀ (by norm_num)]
  congr 1
  have := F.hp
  push_cast [Nat.cast_sub (show 1 ≤ F.p by omega)]; ring

/-- Multiples of a power of two that is not too small, with few enough digits. -/
theorem rnd_rep (m e : ℤ) (hm : |m| ≤ 2 ^ F.p) (he : F.emin ≤ e) : F.rnd (m * 2 ^ e) = m * 2 ^ e := by
  by_cases h : F.tiny ≤ |(m : ℝ) * 2 ^ e|
  · rw [F.rnd_big h]; exact flBin_rep _ (by have := F.hp; omega) m e hm
  · push Not at h
    rw [F.rnd_small (by have := F.tiny_pos; linarith)]
    obtain ⟨j, hj⟩ : ∃ j : ℕ, e = F.emin + j := ⟨(e - F.emin).toNat, by omega⟩
    have h0 : (0 : ℝ) < 2 ^ F.emin := by positivity
    have : (m : ℝ) * 2 ^ e / 2 ^ F.emin = ((m * 2 ^ j : ℤ) : ℝ) := by
      rw [hj, zpow_add₀ (by norm_num), zpow_natCast]; push_cast; field_simp
    rw [this, pyRound_int, ← this]; field_simp

theorem rnd_fl {x : ℝ} (h : F.IsFl x) : F.rnd x = x := by
  obtain ⟨m, e, h1, h2, _, rfl⟩ := h
  exact F.rnd_rep m e h1.le h2

theorem rnd_tiny : F.rnd F.tiny = F.tiny := by
  rw [F.tiny_eq]
  refine F.rnd_rep _ _ ?_ le_rfl
  rw [abs_of_nonneg (by positivity)]
  exact pow_le_pow_right₀ (by norm_num) (by omega)

theorem small_mono {x y : ℝ} (h : x ≤ y) :
    (2 : ℝ) ^ F.emin * pyRound (x / 2 ^ F.emin) ≤ 2 ^ F.emin * pyRound (y / 2 ^ F.emin) := by
  have h0 : (0 : ℝ) < 2 ^ F.emin := by positivity
  have : pyRound (x / 2 ^ F.emin) ≤ pyRound (y / 2 ^ F.emin) := pyRound_mono (by gcongr)
  have : (pyRound (x / 2 ^ F.emin) : ℝ) ≤ pyRound (y / 2 ^ F.emin) := by exact_mod_cast this
  gcongr

theorem rnd_mono {x y : ℝ} (h : x ≤ y) : F.rnd x ≤ F.rnd y := by
  have ht := F.tiny_pos
  have hp : 1 ≤ F.p := by have := F.hp; omega
  have big : ∀ {x y : ℝ}, F.tiny ≤ |x| → F.tiny ≤ |y| → x ≤ y → F.rnd x ≤ F.rnd y := by
    intro x y hx hy h
    rw [F.rnd_big hx, F.rnd_big hy]; exact flBin_mono _ hp _ _ h
  have small : ∀ {x y : ℝ}, |x| ≤ F.tiny → |y| ≤ F.tiny → x ≤ y → F.rnd x ≤ F.rnd y := by
    intro x y hx hy h
    rw [F.rnd_small (by linarith), F.rnd_small (by linarith)]; exact F.small_mono h
  have at' : |F.tiny| = F.tiny := abs_of_pos ht
  rcases le_total F.tiny |x| with hx | hx <;> rcases le_total F.tiny |y| with hy | hy
  · exact big hx hy h
  · rcases le_abs.1 hx with hx' | hx'
    · exact small (by rw [abs_le] at hy ⊢; constructor <;> linarith) hy h
    · have h1 : F.rnd x ≤ F.rnd (-F.tiny) := big hx (by rw [abs_neg, at']) (by linarith)
      have h2 : F.rnd (-F.tiny) ≤ F.rnd y := small (by rw [abs_neg, at']) hy (by rw [abs_le] at hy; linarith)
      exact h1.trans h2
  · rcases le_abs.1 hy with hy' | hy'
    · have h1 : F.rnd x ≤ F.rnd F.tiny := small hx (by rw [at']) (by rw [abs_le] at hx; linarith)
      have h2 : F.rnd F.tiny ≤ F.rnd y := big (by rw [at']) hy hy'
      exact h1.trans h2
    · exact small hx (by rw [abs_le] at hx ⊢; constructor <;> linarith) h
  · exact small hx hy h

theorem eta_pos : (0 : ℝ) < 2 ^ F.emin := by positivity

theorem last_ge (x : ℝ) : F.emin ≤ F.last x := le_max_left _ _

/-- The mantissa of a rounded number. -/
theorem mant_le (x : ℝ) : |pyRound (x / 2 ^ F.last x)| ≤ 2 ^ F.p := by
  apply abs_pyRound_le
  have h0 : (0 : ℝ) < 2 ^ F.last x := by positivity
  rw [abs_div, abs_of_pos h0, div_le_iff₀ h0]
  refine (lt_log x).le.trans ?_
  push_cast
  rw [← zpow_natCast, ← zpow_add₀ (by norm_num)]
  apply zpow_le_zpow_right₀ (by norm_num)
  have : Int.log 2 |x| - F.p + 1 ≤ F.last x := le_max_right _ _
  omega

theorem rnd_idem (x : ℝ) : F.rnd (F.rnd x) = F.rnd x := by
  have := F.rnd_rep (pyRound (x / 2 ^ F.last x)) (F.last x) (F.mant_le x) (F.last_ge x)
  rw [mul_comm] at this
  exact this

theorem fl_maxf : F.IsFl F.maxf := by
  refine ⟨2 ^ F.p - 1, F.emax, ?_, F.he, le_rfl, by unfold maxf; push_cast; rfl⟩
  have : (1 : ℤ) ≤ 2 ^ F.p := one_le_pow₀ (by norm_num)
  rw [abs_of_nonneg (by omega)]; omega

theorem fl_neg {x : ℝ} (h : F.IsFl x) : F.IsFl (-x) := by
  obtain ⟨m, e, h1, h2, h3, rfl⟩ := h
  exact ⟨-m, e, by rwa [abs_neg], h2, h3, by push_cast; ring⟩

theorem maxf_pos : 0 < F.maxf := by
  unfold maxf
  have : (2 : ℝ) ^ 2 ≤ 2 ^ F.p := pow_le_pow_right₀ (by norm_num) F.hp
  have h0 : (0 : ℝ) < 2 ^ F.emax := by positivity
  apply mul_pos _ h0
  norm_num at this; linarith

theorem fl_le_maxf {x : ℝ} (h : F.IsFl x) : |x| ≤ F.maxf := by
  obtain ⟨m, e, h1, h2, h3, rfl⟩ := h
  have h0 : (0 : ℝ) < 2 ^ e := by positivity
  rw [abs_mul, abs_of_pos h0]
  unfold maxf
  have : |m| ≤ 2 ^ F.p - 1 := by omega
  have h4 : |(m : ℝ)| ≤ 2 ^ F.p - 1 := by exact_mod_cast this
  have h5 : (2 : ℝ) ^ e ≤ 2 ^ F.emax := zpow_le_zpow_right₀ (by norm_num) h3
  gcongr
  exact (abs_nonneg _).trans h4

/-- Rounding gives a float, unless it gives too large a number. -/
theorem fl_rnd {x : ℝ} (h : |F.rnd x| ≤ F.maxf) : F.IsFl (F.rnd x) := by
  -- a number with at most `2 ^ p` units of the last place
  have key : ∀ (m e : ℤ), |m| ≤ 2 ^ F.p → F.emin ≤ e → |(m : ℝ) * 2 ^ e| ≤ F.maxf → F.IsFl (m * 2 ^ e) := by
    intro m e hm he hle
    -- first with fewer units
    have lt : ∀ (m e : ℤ), |m| < 2 ^ F.p → F.emin ≤ e → |(m : ℝ) * 2 ^ e| ≤ F.maxf → F.IsFl (m * 2 ^ e) := by
      intro m e hm he hle
      by_cases h3 : e ≤ F.emax
      · exact ⟨m, e, hm, he, h3, rfl⟩
      · obtain ⟨j, hj⟩ : ∃ j : ℕ, e = F.emax + j := ⟨(e - F.emax).toNat, by omega⟩
        refine ⟨m * 2 ^ j, F.emax, ?_, F.he, le_rfl, by rw [hj, zpow_add₀ (by norm_num), zpow_natCast]; push_cast; ring⟩
        have h0 : (0 : ℝ) < 2 ^ F.emax := by positivity
        have e1 : (m : ℝ) * 2 ^ e = ((m * 2 ^ j : ℤ) : ℝ) * 2 ^ F.emax := by
          rw [hj, zpow_add₀ (by norm_num), zpow_natCast]; push_cast; ring
        rw [e1, abs_mul, abs_of_pos h0, maxf] at hle
        have h4 := le_of_mul_le_mul_right hle h0
        have h5 : |m * 2 ^ j| ≤ 2 ^ F.p - 1 := by exact_mod_cast h4
        omega
    rcases lt_or_eq_of_le hm with hlt | heq
    · exact lt m e hlt he hle
    · -- half as many units of twice the size
      have hp := F.hp
      obtain ⟨q, hq⟩ : ∃ q, F.p = q + 1 := ⟨F.p - 1, by omega⟩
      rw [hq] at heq
      obtain ⟨n, hn, rfl⟩ : ∃ n : ℤ, |n| = 2 ^ q ∧ m = 2 * n := by
        rcases abs_choice m with h | h <;> rw [h] at heq
        · exact ⟨2 ^ q, abs_of_nonneg (by positivity), by rw [heq]; ring⟩
        · exact ⟨-2 ^ q, by rw [abs_neg]; exact abs_of_nonneg (by positivity), by linarith [heq, pow_succ (2 : ℤ) q]⟩
      have e2 : ((2 * n : ℤ) : ℝ) * 2 ^ e = (n : ℝ) * 2 ^ (e + 1) := by
        rw [zpow_add_one₀ (by norm_num)]; push_cast; ring
      rw [e2] at hle ⊢
      refine lt n (e + 1) ?_ (by omega) hle
      rw [hn, hq]
      exact pow_lt_pow_right₀ (by norm_num) (by omega)
  have e : F.rnd x = (pyRound (x / 2 ^ F.last x) : ℝ) * 2 ^ F.last x := by unfold rnd; ring
  rw [e] at h ⊢
  exact key _ _ (F.mant_le x) (F.last_ge x) h

/-- No multiple of the last place of `x` is closer than the rounded number. -/
theorem rnd_nearest_mult (x : ℝ) (n : ℤ) : |F.rnd x - x| ≤ |(n : ℝ) * 2 ^ F.last x - x| := by
  have h0 : (0 : ℝ) < 2 ^ F.last x := by positivity
  set t := x / 2 ^ F.last x with ht
  have ex : x = t * 2 ^ F.last x := by rw [ht]; field_simp
  have e1 : F.rnd x - x = (pyRound t - t) * 2 ^ F.last x := by
    unfold rnd; rw [← ht]; conv_lhs => rw [show x = t * 2 ^ F.last x from ex]
    have : F.last (t * 2 ^ F.last x) = F.last x := by rw [← ex]
    rw [this]; ring
  have e2 : (n : ℝ) * 2 ^ F.last x - x = (n - t) * 2 ^ F.last x := by rw [sub_mul, ← ex]
  rw [e1, e2, abs_mul, abs_mul, abs_of_pos h0]
  refine mul_le_mul_of_nonneg_right ?_ h0.le
  have h1 := (isRound_pyRound t).1
  by_cases hn : n = pyRound t
  · rw [hn]
  · have h2 : (1 : ℝ) ≤ |(n : ℝ) - pyRound t| := by
      have : 1 ≤ |n - pyRound t| := Int.one_le_abs (sub_ne_zero.2 hn)
      exact_mod_cast this
    have h3 : |(n : ℝ) - pyRound t| ≤ |(n : ℝ) - t| + |t - pyRound t| := abs_sub_le _ _ _
    rw [abs_sub_comm (pyRound t : ℝ) t]
    linarith

/-- Rounding gives one of the floats nearest to the exact number (also of those beyond the largest finite one). -/
theorem rnd_nearest (x : ℝ) (m e : ℤ) (hm : |m| < 2 ^ F.p) (he : F.emin ≤ e) : |F.rnd x - x| ≤ |(m : ℝ) * 2 ^ e - x| := by
  have mult : ∀ (m e : ℤ), F.last x ≤ e → |F.rnd x - x| ≤ |(m : ℝ) * 2 ^ e - x| := by
    intro m e h
    obtain ⟨j, hj⟩ : ∃ j : ℕ, e = F.last x + j := ⟨(e - F.last x).toNat, by omega⟩
    have := F.rnd_nearest_mult x (m * 2 ^ j)
    have e1 : ((m * 2 ^ j : ℤ) : ℝ) * 2 ^ F.last x = (m : ℝ) * 2 ^ e := by
      rw [hj, zpow_add₀ (by norm_num), zpow_natCast]; push_cast; ring
    rwa [e1] at this
  by_cases hx : x = 0
  · rw [hx, rnd_zero]; simp; positivity
  by_cases hl : F.last x ≤ e
  · exact mult m e hl
  · -- then `x` is larger than the float
    push Not at hl
    have hl' : F.last x = Int.log 2 |x| - F.p + 1 := by
      unfold last at hl ⊢
      rcases max_choice F.emin (Int.log 2 |x| - F.p + 1) with h | h <;> rw [h] at hl ⊢
      omega
    have hp := F.hp
    have hL := log_le hx
    generalize Int.log 2 |x| = L at *
    have h0 : (0 : ℝ) < 2 ^ e := by positivity
    have hy : |(m : ℝ) * 2 ^ e| ≤ 2 ^ L := by
      rw [abs_mul, abs_of_pos h0]
      have h1 : |(m : ℝ)| ≤ 2 ^ F.p := by exact_mod_cast hm.le
      calc |(m : ℝ)| * 2 ^ e ≤ 2 ^ F.p * 2 ^ e := by gcongr
        _ = (2 : ℝ) ^ (F.p + e) := by rw [zpow_add₀ (by norm_num), zpow_natCast]
        _ ≤ _ := zpow_le_zpow_right₀ (by norm_num) (by omega)
    have h2 : |x| - |(m : ℝ) * 2 ^ e| ≤ |(m : ℝ) * 2 ^ e - x| := by
      rw [abs_sub_comm]; exact abs_sub_abs_le_abs_sub _ _
    rcases lt_or_gt_of_ne hx with hneg | hpos
    · have h1 := mult (-1) L (by omega)
      rw [abs_of_neg hneg] at hL h2
      refine h1.trans (le_trans (le_of_eq ?_) ((sub_le_sub_left hy _).trans h2))
      push_cast
      rw [abs_of_nonneg (by linarith)]; ring
    · have h1 := mult 1 L (by omega)
      rw [abs_of_pos hpos] at hL h2
      refine h1.trans (le_trans (le_of_eq ?_) ((sub_le_sub_left hy _).trans h2))
      push_cast
      rw [abs_of_nonpos (by linarith)]; ring

theorem rnd_err (x : ℝ) : |F.rnd x - x| ≤ (2 : ℝ) ^ (-(F.p : ℤ)) * |x| + 2 ^ F.emin / 2 := by
  have h0 := F.eta_pos
  by_cases h : F.tiny ≤ |x|
  · rw [F.rnd_big h]; have := flBin_err F.p x; linarith
  · push Not at h
    have h1 : 0 ≤ (2 : ℝ) ^ (-(F.p : ℤ)) * |x| := by positivity
    rw [F.rnd_small (by have := F.tiny_pos; linarith)]
    have h2 := (isRound_pyRound (x / 2 ^ F.emin)).1
    have e : (2 : ℝ) ^ F.emin * pyRound (x / 2 ^ F.emin) - x = -(2 ^ F.emin * (x / 2 ^ F.emin - pyRound (x / 2 ^ F.emin))) := by
      field_simp; ring
    rw [e, abs_neg, abs_mul, abs_of_pos h0]
    nlinarith

theorem rnd_nonneg {x : ℝ} (h : 0 ≤ x) : 0 ≤ F.rnd x := by
  have := F.rnd_mono h
  rwa [rnd_zero] at this

/-- Rounding at most doubles the size. -/
theorem rnd_abs_le (x : ℝ) : |F.rnd x| ≤ 2 * |x| := by
  have key : ∀ {x : ℝ}, 0 ≤ x → F.rnd x ≤ 2 * x := by
    intro x hx
    rcases le_or_gt (2 ^ F.emin / 2) x with h | h
    · have h1 := F.rnd_err x
      have h2 : (2 : ℝ) ^ (-(F.p : ℤ)) ≤ 1 / 2 := by
        refine (zpow_le_zpow_right₀ (by norm_num) (show -(F.p : ℤ) ≤ -1 by have := F.hp; omega)).trans ?_
        norm_num
      -- below one unit the rounded number is at most one unit
      rcases le_or_gt (2 ^ F.emin) x with h' | h'
      · rw [abs_of_nonneg hx] at h1
        have h3 := (abs_le.1 h1).2
        nlinarith
      · have : F.rnd x ≤ F.rnd ((1 : ℤ) * 2 ^ F.emin) := F.rnd_mono (by push_cast; linarith)
        rw [F.rnd_rep 1 F.emin (by simp; exact one_le_pow₀ (by norm_num)) le_rfl] at this
        push_cast at this
        linarith
    · have ht : (2 : ℝ) ^ F.emin ≤ F.tiny := zpow_le_zpow_right₀ (by norm_num) (by have := F.hp; omega)
      have h0 := F.eta_pos
      rw [F.rnd_small (by rw [abs_of_nonneg hx]; linarith)]
      have h3 : pyRound (x / 2 ^ F.emin) = 0 := by
        symm
        rw [← isRound_iff]
        have h4 : x / 2 ^ F.emin < 1 / 2 := by rw [div_lt_iff₀ h0]; linarith
        have h5 : 0 ≤ x / 2 ^ F.emin := div_nonneg hx h0.le
        refine ⟨by rw [Int.cast_zero, sub_zero, abs_of_nonneg h5]; exact h4.le, fun _ => by simp⟩
      rw [h3]; simp; linarith
  rcases le_total 0 x with h | h
  · rw [abs_of_nonneg (F.rnd_nonneg h), abs_of_nonneg h]; exact key h
  · have h1 := key (x := -x) (by linarith)
    have h2 := F.rnd_nonneg (x := -x) (by linarith)
    rw [rnd_neg] at h1 h2
    rw [abs_of_nonpos (by linarith), abs_of_nonpos h]; linarith

/-! ### Overflow -/

theorem toF_fin {x : ℝ} (h : |F.rnd x| ≤ F.maxf) : F.toF x = fin (F.rnd x) := by
  rw [abs_le] at h
  unfold toF
  rw [if_neg (by linarith), if_neg (by linarith)]

theorem rnd_le_maxf {x : ℝ} (h : |x| ≤ F.maxf) : |F.rnd x| ≤ F.maxf := by
  rw [abs_le] at h ⊢
  have h1 := F.rnd_mono h.1
  have h2 := F.rnd_mono h.2
  rw [rnd_neg, F.rnd_fl F.fl_maxf] at h1
  rw [F.rnd_fl F.fl_maxf] at h2
  exact ⟨h1, h2⟩

theorem toF_in {x : ℝ} (h : |x| ≤ F.maxf) : F.toF x = fin (F.rnd x) := F.toF_fin (F.rnd_le_maxf h)

theorem fin_inj {x y : ℝ} : fin x = fin y ↔ x = y := by simp [fin]

theorem add_fin (x y : ℝ) : F.add (fin x) (fin y) = F.toF (x + y) := by
  simp [add, fin]

theorem neg_fin (x : ℝ) : neg (fin x) = fin (-x) := by simp [neg, fin]

theorem sub_fin (x y : ℝ) : F.sub (fin x) (fin y) = F.toF (x - y) := by
  rw [sub, neg_fin, add_fin, sub_eq_add_neg]

theorem mul_fin (x y : ℝ) : F.mul (fin x) (fin y) = F.toF (x * y) := by
  simp [mul, fin]

theorem half_fin (x : ℝ) : F.half (fin x) = F.toF (x / 2) := by
  simp [half, fin]

theorem fma_fin (x y z : ℝ) : F.fma (fin x) (fin y) (fin z) = F.toF (x * y + z) := by
  simp [fma, fin]

theorem le_fin {x y : ℝ} : le (fin x) (fin y) = true ↔ x ≤ y := by simp [le, fin]

theorem lt_fin {x y : ℝ} : lt (fin x) (fin y) = true ↔ x < y := by simp [lt, fin]

end X7.Fmt
