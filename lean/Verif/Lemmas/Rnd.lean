import Mathlib.Data.Int.Log
import Mathlib.Tactic.Linarith
import Mathlib.Tactic.Ring
import Mathlib.Tactic.FieldSimp
import Mathlib.Tactic.Positivity
import Mathlib.Tactic.NormNum
import Verif.Model.Rnd
import Verif.Lemmas.Draw

/-!
Rounding to `p` binary digits satisfies the assumptions of `Rnd`; consequences of these; the error calculus `Near`.
-/

noncomputable section

namespace X7

/-! ### Rounding to p binary digits -/

theorem pyRound_int (n : ℤ) : pyRound (n : ℝ) = n := by
  symm
  rw [← isRound_iff]
  constructor
  · simp
  · intro h; norm_num at h

theorem pyRound_neg (x : ℝ) : pyRound (-x) = -pyRound x := by
  symm
  rw [← isRound_iff]
  obtain ⟨h1, h2⟩ := isRound_pyRound x
  have e : |-x - ((-pyRound x : ℤ) : ℝ)| = |x - pyRound x| := by
    rw [← abs_neg]; congr 1; push_cast; ring
  refine ⟨by rw [e]; exact h1, fun h => ?_⟩
  rw [e] at h
  simpa using h2 h

theorem pyRound_mono {x y : ℝ} (h : x ≤ y) : pyRound x ≤ pyRound y := by
  by_contra hc
  push Not at hc
  obtain ⟨x1, x2⟩ := isRound_pyRound x
  obtain ⟨y1, y2⟩ := isRound_pyRound y
  rw [abs_le] at x1 y1
  have hc' : (pyRound y : ℝ) + 1 ≤ pyRound x := by exact_mod_cast hc
  have ex : x = pyRound x - 1 / 2 := by linarith [x1.1, y1.2]
  have ey : y = pyRound y + 1 / 2 := by linarith [x1.1, y1.2]
  have e1 := x2 (by rw [show x - (pyRound x : ℝ) = -(1 / 2) by linarith, abs_neg]; norm_num)
  have e2 := y2 (by rw [show y - (pyRound y : ℝ) = 1 / 2 by linarith]; norm_num)
  have : (pyRound x : ℝ) = pyRound y + 1 := by linarith
  have h3 : pyRound x = pyRound y + 1 := by exact_mod_cast this
  rw [h3, Int.even_add_one] at e1
  exact e1 e2

/-- The distance of neighbouring floats with `p` digits near `x`. -/
def ulp (p : ℕ) (x : ℝ) : ℝ := (2 : ℝ) ^ (Int.log 2 |x| - p + 1)

/-- Rounding to `p` binary digits, ties to even, with unbounded exponent. -/
def flBin (p : ℕ) (x : ℝ) : ℝ := if x = 0 then 0 else ulp p x * pyRound (x / ulp p x)

theorem ulp_pos (p : ℕ) (x : ℝ) : 0 < ulp p x := by unfold ulp; positivity

theorem log_le {x : ℝ} (h : x ≠ 0) : (2 : ℝ) ^ (Int.log 2 |x|) ≤ |x| := by
  have := Int.zpow_log_le_self (R := ℝ) (b := 2) (by norm_num) (abs_pos.2 h)
  simpa using this

theorem lt_log (x : ℝ) : |x| < (2 : ℝ) ^ (Int.log 2 |x| + 1) := by
  have := Int.lt_zpow_succ_log_self (R := ℝ) (b := 2) (by norm_num) |x|
  simpa using this

theorem log_eq {x : ℝ} {e : ℤ} (h1 : (2 : ℝ) ^ e ≤ |x|) (h2 : |x| < (2 : ℝ) ^ (e + 1)) : Int.log 2 |x| = e := by
  have hx : x ≠ 0 := by
    rintro rfl
    have : (0 : ℝ) < 2 ^ e := by positivity
    simp at h1; linarith
  have a := log_le hx
  have b := lt_log x
  have c : e < Int.log 2 |x| + 1 := by
    have := lt_of_le_of_lt h1 b
    rwa [zpow_lt_zpow_iff_right₀ (by norm_num)] at this
  have d : Int.log 2 |x| < e + 1 := by
    have := lt_of_le_of_lt a h2
    rwa [zpow_lt_zpow_iff_right₀ (by norm_num)] at this
  omega

theorem flBin_zero (p : ℕ) : flBin p 0 = 0 := by simp [flBin]

theorem flBin_neg (p : ℕ) (x : ℝ) : flBin p (-x) = -flBin p x := by
  unfold flBin
  by_cases h : x = 0
  · simp [h]
  · rw [if_neg (by simpa using h), if_neg h]
    have : ulp p (-x) = ulp p x := by simp [ulp]
    rw [this, neg_div, pyRound_neg]; push_cast; ring

theorem flBin_dbl (p : ℕ) (x : ℝ) : flBin p (2 * x) = 2 * flBin p x := by
  unfold flBin
  by_cases h : x = 0
  · simp [h]
  · rw [if_neg (by simpa using h), if_neg h]
    have hl : Int.log 2 |2 * x| = Int.log 2 |x| + 1 := by
      apply log_eq
      · rw [abs_mul, zpow_add_one₀ (by norm_num)]; have := log_le h; simp; linarith
      · rw [abs_mul, zpow_add_one₀ (by norm_num)]; have := lt_log x; simp; linarith
    have : ulp p (2 * x) = 2 * ulp p x := by
      unfold ulp
      rw [hl, show Int.log 2 |x| + 1 - (p : ℤ) + 1 = (Int.log 2 |x| - p + 1) + 1 by ring, zpow_add_one₀ (by norm_num)]; ring
    rw [this, mul_div_mul_left _ _ (by norm_num)]; ring

theorem flBin_err (p : ℕ) (x : ℝ) : |flBin p x - x| ≤ (2 : ℝ) ^ (-(p : ℤ)) * |x| := by
  unfold flBin
  by_cases h : x = 0
  · simp [h]
  · rw [if_neg h]
    have hu := ulp_pos p x
    have e : ulp p x * pyRound (x / ulp p x) - x = -(ulp p x * (x / ulp p x - pyRound (x / ulp p x))) := by
      field_simp; ring
    rw [e, abs_neg, abs_mul, abs_of_pos hu]
    have h1 := (isRound_pyRound (x / ulp p x)).1
    have h2 : ulp p x = 2 * ((2 : ℝ) ^ (-(p : ℤ)) * (2 : ℝ) ^ (Int.log 2 |x|)) := by
      unfold ulp
      rw [← zpow_add₀ (by norm_num), ← zpow_one_add₀ (by norm_num)]; congr 1; ring
    have h3 := log_le h
    have h4 : (0 : ℝ) < (2 : ℝ) ^ (-(p : ℤ)) := by positivity
    calc ulp p x * |x / ulp p x - pyRound (x / ulp p x)| ≤ ulp p x * (1 / 2) := by gcongr
      _ = (2 : ℝ) ^ (-(p : ℤ)) * (2 : ℝ) ^ (Int.log 2 |x|) := by rw [h2]; ring
      _ ≤ _ := by gcongr

/-- Numbers with few enough digits are floats. -/
theorem flBin_rep (p : ℕ) (hp : 1 ≤ p) (n k : ℤ) (hn : |n| ≤ 2 ^ p) :
    flBin p ((n : ℝ) * 2 ^ k) = (n : ℝ) * 2 ^ k := by
  unfold flBin
  by_cases h : (n : ℝ) * 2 ^ k = 0
  · rw [if_pos h, h]
  rw [if_neg h]
  have hu := ulp_pos p ((n : ℝ) * 2 ^ k)
  have hk : (0 : ℝ) < 2 ^ k := by positivity
  have habs : |(n : ℝ) * 2 ^ k| = (|n| : ℤ) * 2 ^ k := by
    rw [abs_mul, abs_of_pos hk]; push_cast; rfl
  -- the quotient by the ulp is an integer
  have key : ∃ z : ℤ, (n : ℝ) * 2 ^ k / ulp p ((n : ℝ) * 2 ^ k) = z := by
    rcases lt_or_eq_of_le hn with hlt | heq
    · have hlog : Int.log 2 |(n : ℝ) * 2 ^ k| < k + p := by
        have h1 := log_le h
        have h2 : |(n : ℝ) * 2 ^ k| < (2 : ℝ) ^ (k + p) := by
          rw [habs, zpow_add₀ (by norm_num), mul_comm]
          have : ((|n| : ℤ) : ℝ) < 2 ^ p := by exact_mod_cast hlt
          simp only [zpow_natCast]
          gcongr
        have := lt_of_le_of_lt h1 h2
        rwa [zpow_lt_zpow_iff_right₀ (by norm_num)] at this
      obtain ⟨j, hj⟩ : ∃ j : ℕ, k = (Int.log 2 |(n : ℝ) * 2 ^ k| - p + 1) + j :=
        ⟨(k - (Int.log 2 |(n : ℝ) * 2 ^ k| - p + 1)).toNat, by omega⟩
      refine ⟨n * 2 ^ j, ?_⟩
      unfold ulp
      generalize hL : Int.log 2 |(n : ℝ) * 2 ^ k| = L at *
      have h2k : (2 : ℝ) ^ k = (2 : ℝ) ^ (L - p + 1) * 2 ^ j := by
        conv_lhs => rw [hj]
        rw [zpow_add₀ (by norm_num), zpow_natCast]
      rw [h2k]
      have : (0 : ℝ) < 2 ^ (L - p + 1) := by positivity
      push_cast
      field_simp
    · have hlog : Int.log 2 |(n : ℝ) * 2 ^ k| = k + p := by
        have e : |(n : ℝ) * 2 ^ k| = (2 : ℝ) ^ (k + p) := by
          rw [habs, heq, zpow_add₀ (by norm_num)]; push_cast; rw [zpow_natCast]; ring
        apply log_eq
        · rw [e]
        · rw [e, zpow_lt_zpow_iff_right₀ (by norm_num)]; omega
      have hu2 : ulp p ((n : ℝ) * 2 ^ k) = 2 * 2 ^ k := by
        unfold ulp
        rw [hlog, show k + (p : ℤ) - p + 1 = k + 1 by ring, zpow_add_one₀ (by norm_num)]; ring
      obtain ⟨q, rfl⟩ : ∃ q, p = q + 1 := ⟨p - 1, by omega⟩
      have hn2 : n = 2 ^ (q + 1) ∨ n = -2 ^ (q + 1) := by
        rcases abs_choice n with h | h <;> rw [h] at heq
        · left; exact heq
        · right; omega
      rw [hu2]
      rcases hn2 with rfl | rfl
      · refine ⟨2 ^ q, ?_⟩
        push_cast; field_simp; ring
      · refine ⟨-2 ^ q, ?_⟩
        push_cast; field_simp; ring
  obtain ⟨z, hz⟩ := key
  rw [hz, pyRound_int, ← hz]
  field_simp

theorem abs_pyRound_le {x : ℝ} {n : ℤ} (h : |x| ≤ n) : |pyRound x| ≤ n := by
  rw [abs_le] at h ⊢
  have a := pyRound_mono h.1
  have b := pyRound_mono h.2
  rw [pyRound_int] at b
  rw [show -(n : ℝ) = ((-n : ℤ) : ℝ) by push_cast; rfl, pyRound_int] at a
  exact ⟨a, b⟩

theorem abs_div_ulp (p : ℕ) (x : ℝ) : |x / ulp p x| ≤ ((2 ^ p : ℤ) : ℝ) := by
  have hu := ulp_pos p x
  rw [abs_div, abs_of_pos hu, div_le_iff₀ hu]
  have := (lt_log x).le
  refine this.trans (le_of_eq ?_)
  unfold ulp
  push_cast
  rw [← zpow_natCast, ← zpow_add₀ (by norm_num)]; congr 1; ring

theorem flBin_idem (p : ℕ) (hp : 1 ≤ p) (x : ℝ) : flBin p (flBin p x) = flBin p x := by
  by_cases h : x = 0
  · simp [h, flBin_zero]
  · have e : flBin p x = (pyRound (x / ulp p x) : ℝ) * 2 ^ (Int.log 2 |x| - p + 1) := by
      unfold flBin; rw [if_neg h, mul_comm]; rfl
    rw [e]
    exact flBin_rep p hp _ _ (abs_pyRound_le (abs_div_ulp p x))

theorem flBin_nonneg (p : ℕ) {x : ℝ} (h : 0 ≤ x) : 0 ≤ flBin p x := by
  unfold flBin
  split
  · exact le_rfl
  · have := pyRound_mono (x := ((0 : ℤ) : ℝ)) (y := x / ulp p x) (by push_cast; exact div_nonneg h (ulp_pos p x).le)
    rw [pyRound_int] at this
    exact mul_nonneg (ulp_pos p x).le (by exact_mod_cast this)

theorem flBin_mono (p : ℕ) (hp : 1 ≤ p) (x y : ℝ) (h : x ≤ y) : flBin p x ≤ flBin p y := by
  -- both positive
  have pos : ∀ x y : ℝ, 0 < x → x ≤ y → flBin p x ≤ flBin p y := by
    intro x y hx hxy
    have hy := hx.trans_le hxy
    have hl : Int.log 2 |x| ≤ Int.log 2 |y| := by
      rw [abs_of_pos hx, abs_of_pos hy]; exact Int.log_mono_right hx hxy
    rcases eq_or_lt_of_le hl with he | hlt
    · have : ulp p x = ulp p y := by unfold ulp; rw [he]
      unfold flBin
      rw [if_neg hx.ne', if_neg hy.ne', this]
      have hu := ulp_pos p y
      have := pyRound_mono (x := x / ulp p y) (y := y / ulp p y) (by gcongr)
      have : (pyRound (x / ulp p y) : ℝ) ≤ pyRound (y / ulp p y) := by exact_mod_cast this
      gcongr
    · -- a power of two in between
      have h1 : flBin p x ≤ (2 : ℝ) ^ (Int.log 2 |x| + 1) := by
        unfold flBin
        rw [if_neg hx.ne']
        have := (le_abs_self _).trans (abs_pyRound_le (abs_div_ulp p x))
        have : (pyRound (x / ulp p x) : ℝ) ≤ 2 ^ p := by exact_mod_cast this
        calc ulp p x * pyRound (x / ulp p x) ≤ ulp p x * 2 ^ p := by have := ulp_pos p x; gcongr
          _ = _ := by unfold ulp; rw [← zpow_natCast, ← zpow_add₀ (by norm_num)]; congr 1; ring
      have h2 : (2 : ℝ) ^ (Int.log 2 |y|) ≤ flBin p y := by
        unfold flBin
        rw [if_neg hy.ne']
        have h3 : ((2 ^ (p - 1) : ℤ) : ℝ) ≤ y / ulp p y := by
          rw [le_div_iff₀ (ulp_pos p y)]
          have h4 := log_le hy.ne'
          rw [abs_of_pos hy] at h4
          refine le_trans (le_of_eq ?_) h4
          unfold ulp
          push_cast
          rw [abs_of_pos hy, ← zpow_natCast, ← zpow_add₀ (by norm_num)]; congr 1; push_cast [Nat.cast_sub hp]; ring
        have h5 := pyRound_mono h3
        rw [pyRound_int] at h5
        have h6 : ((2 : ℝ) ^ (p - 1)) ≤ pyRound (y / ulp p y) := by exact_mod_cast h5
        calc (2 : ℝ) ^ (Int.log 2 |y|) = ulp p y * 2 ^ (p - 1) := by
              unfold ulp; rw [← zpow_natCast, ← zpow_add₀ (by norm_num)]; congr 1; push_cast [Nat.cast_sub hp]; ring
          _ ≤ _ := by have := ulp_pos p y; gcongr
      refine h1.trans (le_trans ?_ h2)
      exact zpow_le_zpow_right₀ (by norm_num) (by omega)
  rcases lt_trichotomy x 0 with hx | hx | hx
  · rcases lt_or_ge y 0 with hy | hy
    · have := pos (-y) (-x) (by linarith) (by linarith)
      rw [flBin_neg, flBin_neg] at this; linarith
    · have h1 := flBin_nonneg p hy
      have h2 := flBin_nonneg p (x := -x) (by linarith)
      rw [flBin_neg] at h2; linarith
  · rw [hx, flBin_zero]; exact flBin_nonneg p (by linarith)
  · exact pos x y hx h

/-- Rounding to `p` binary digits is an instance of the assumptions; Python floats have `p = 53`. -/
def Rnd.binary (p : ℕ) (hp : 1 ≤ p) : Rnd where
  fl := flBin p
  u := (2 : ℝ) ^ (-(p : ℤ))
  u_nonneg := by positivity
  u_le := by
    rw [show (1 / 2 : ℝ) = 2 ^ (-1 : ℤ) by norm_num]
    exact zpow_le_zpow_right₀ (by norm_num) (by omega)
  mono := flBin_mono p hp
  err := flBin_err p
  neg := flBin_neg p
  dbl := flBin_dbl p
  idem := flBin_idem p hp
  int := by
    intro n hn
    have h : |n| ≤ 2 ^ p := by
      have h2 : (0 : ℝ) < 2 ^ p := by positivity
      rw [zpow_neg, zpow_natCast, ← div_eq_mul_inv, div_le_one h2] at hn
      exact_mod_cast hn
    have := flBin_rep p hp n 0 h
    simpa using this

/-! ### Consequences -/

namespace Rnd
variable (R : Rnd)

theorem fl_zero : R.fl 0 = 0 := by
  have := R.int 0 (by simp); simpa using this

theorem fl_one : R.fl 1 = 1 := by
  have := R.int 1 (by have := R.u_le; simp; linarith); simpa using this

theorem fl_half (x : ℝ) : R.fl (x / 2) = R.fl x / 2 := by
  have := R.dbl (x / 2)
  rw [mul_div_cancel₀ _ (by norm_num : (2 : ℝ) ≠ 0)] at this
  linarith

theorem fl_nonneg {x : ℝ} (h : 0 ≤ x) : 0 ≤ R.fl x := by
  have := R.mono 0 x h; rwa [R.fl_zero] at this

theorem fl_nonpos {x : ℝ} (h : x ≤ 0) : R.fl x ≤ 0 := by
  have := R.mono x 0 h; rwa [R.fl_zero] at this

theorem fl_eq_zero {x : ℝ} : R.fl x = 0 ↔ x = 0 := by
  constructor
  · intro h
    have := R.err x
    rw [h, zero_sub, abs_neg] at this
    have h2 : 0 ≤ |x| := abs_nonneg x
    have h3 := R.u_le
    have : |x| = 0 := by nlinarith
    exact abs_eq_zero.1 this
  · rintro rfl; exact R.fl_zero

theorem fl_le_of_rep {x y : ℝ} (h : x ≤ y) (hy : R.Rep y) : R.fl x ≤ y := by
  have := R.mono x y h; rwa [hy] at this

theorem le_fl_of_rep {x y : ℝ} (h : x ≤ y) (hx : R.Rep x) : x ≤ R.fl y := by
  have := R.mono x y h; rwa [hx] at this

theorem rep_fl (x : ℝ) : R.Rep (R.fl x) := R.idem x

theorem rep_half {x : ℝ} (h : R.Rep x) : R.Rep (x / 2) := by unfold Rep at *; rw [fl_half, h]

theorem rep_dbl {x : ℝ} (h : R.Rep x) : R.Rep (2 * x) := by unfold Rep at *; rw [R.dbl, h]

theorem rep_neg {x : ℝ} (h : R.Rep x) : R.Rep (-x) := by unfold Rep at *; rw [R.neg, h]

theorem rep_zero : R.Rep 0 := R.fl_zero

theorem rep_one : R.Rep 1 := R.fl_one

theorem fl_le {x : ℝ} (h : 0 ≤ x) : R.fl x ≤ (1 + R.u) * x := by
  have := R.err x
  rw [abs_of_nonneg h, abs_le] at this
  linarith [this.2]

/-! ### The error calculus -/

/-- `x'` is a computed value of `x`, a number of size at most `S`, with an error of at most `n` roundings relative to `S`. -/
def Near (n : ℕ) (x' x S : ℝ) : Prop := |x| ≤ S ∧ |x' - x| ≤ R.gam n * S

theorem one_le_pow (n : ℕ) : 1 ≤ (1 + R.u) ^ n := one_le_pow₀ (by linarith [R.u_nonneg])

theorem gam_nonneg (n : ℕ) : 0 ≤ R.gam n := by unfold gam; linarith [R.one_le_pow n]

theorem gam_mono {m n : ℕ} (h : m ≤ n) : R.gam m ≤ R.gam n := by
  unfold gam
  have : (1 + R.u) ^ m ≤ (1 + R.u) ^ n := pow_le_pow_right₀ (by linarith [R.u_nonneg]) h
  linarith

theorem gam_zero : R.gam 0 = 0 := by simp [gam]

/-- The bound is as good as linear in the number of roundings. -/
theorem gam_le (n : ℕ) (h : (n : ℝ) * R.u ≤ 1) : R.gam n ≤ 2 * (n * R.u) := by
  have key : ∀ m : ℕ, m ≤ n → (1 + R.u) ^ m ≤ 1 + m * R.u + (m * R.u) ^ 2 := by
    intro m
    induction m with
    | zero => intro _; simp
    | succ m ih =>
      intro hm
      have := ih (by omega)
      have hu := R.u_nonneg
      have hmn : ((m : ℝ) + 1) * R.u ≤ 1 := by
        refine le_trans ?_ h
        gcongr
        exact_mod_cast hm
      rw [pow_succ]
      push_cast
      have h0 : 0 ≤ (m : ℝ) := Nat.cast_nonneg m
      have h1 : (1 + R.u) ^ m * (1 + R.u) ≤ (1 + m * R.u + (m * R.u) ^ 2) * (1 + R.u) := by gcongr
      refine h1.trans ?_
      have h2 : (m * R.u) * ((m : ℝ) * R.u ^ 2) ≤ 1 * ((m : ℝ) * R.u ^ 2) := by
        gcongr
        nlinarith
      nlinarith [mul_nonneg h0 (sq_nonneg R.u), sq_nonneg R.u]
  have := key n le_rfl
  unfold gam
  have h0 : 0 ≤ (n : ℝ) * R.u := mul_nonneg (Nat.cast_nonneg n) R.u_nonneg
  nlinarith

variable {R} {m n : ℕ} {x x' y y' A B : ℝ}

namespace Near

theorem size_nonneg (h : R.Near n x' x A) : 0 ≤ A := (abs_nonneg x).trans h.1

theorem of_abs (x : ℝ) : R.Near 0 x x |x| := ⟨le_rfl, by simp [gam_zero]⟩

theorem of_le (h : |x| ≤ A) : R.Near 0 x x A := ⟨h, by simp [gam_zero]⟩

theorem mono (h : R.Near m x' x A) (hmn : m ≤ n) (hAB : A ≤ B) : R.Near n x' x B := by
  refine ⟨h.1.trans hAB, h.2.trans ?_⟩
  have := R.gam_mono hmn
  have := R.gam_nonneg n
  have := h.size_nonneg
  gcongr

theorem abs_le' (h : R.Near n x' x A) : |x'| ≤ (1 + R.u) ^ n * A := by
  have h1 : |x'| ≤ |x' - x| + |x| := by
    have := abs_add_le (x' - x) x; simpa using this
  have h2 := h.2
  unfold gam at h2
  nlinarith [h.1]

theorem neg (h : R.Near n x' x A) : R.Near n (-x') (-x) A := by
  refine ⟨by simpa using h.1, ?_⟩
  have : -x' - -x = -(x' - x) := by ring
  rw [this, abs_neg]; exact h.2

theorem fl (h : R.Near n x' x A) : R.Near (n + 1) (R.fl x') x A := by
  refine ⟨h.1, ?_⟩
  have e1 := R.err x'
  have e2 := h.abs_le'
  have e3 := h.2
  have hu := R.u_nonneg
  calc |R.fl x' - x| ≤ |R.fl x' - x'| + |x' - x| := by
        have := abs_add_le (R.fl x' - x') (x' - x); simpa using this
    _ ≤ R.u * ((1 + R.u) ^ n * A) + ((1 + R.u) ^ n - 1) * A := by
        refine add_le_add (e1.trans ?_) e3
        gcongr
    _ = R.gam (n + 1) * A := by unfold gam; rw [pow_succ]; ring

theorem add' (hx : R.Near m x' x A) (hy : R.Near n y' y B) : R.Near (max m n) (x' + y') (x + y) (A + B) := by
  have hx := hx.mono (le_max_left m n) le_rfl
  have hy := hy.mono (le_max_right m n) le_rfl
  refine ⟨(abs_add_le x y).trans (add_le_add hx.1 hy.1), ?_⟩
  have : x' + y' - (x + y) = (x' - x) + (y' - y) := by ring
  rw [this]
  refine (abs_add_le _ _).trans ?_
  have := add_le_add hx.2 hy.2
  linarith

theorem sub' (hx : R.Near m x' x A) (hy : R.Near n y' y B) : R.Near (max m n) (x' - y') (x - y) (A + B) := by
  rw [sub_eq_add_neg, sub_eq_add_neg]; exact hx.add' hy.neg

theorem mul' (hx : R.Near m x' x A) (hy : R.Near n y' y B) : R.Near (m + n) (x' * y') (x * y) (A * B) := by
  have hA := hx.size_nonneg
  have hB := hy.size_nonneg
  refine ⟨by rw [abs_mul]; exact mul_le_mul hx.1 hy.1 (abs_nonneg _) hA, ?_⟩
  have e : x' * y' - x * y = (x' - x) * y' + x * (y' - y) := by ring
  rw [e]
  refine (abs_add_le _ _).trans ?_
  rw [abs_mul, abs_mul]
  have h1 : |x' - x| * |y'| ≤ (((1 + R.u) ^ m - 1) * A) * ((1 + R.u) ^ n * B) :=
    mul_le_mul hx.2 hy.abs_le' (abs_nonneg _) ((abs_nonneg _).trans hx.2)
  have h2 : |x| * |y' - y| ≤ A * (((1 + R.u) ^ n - 1) * B) := mul_le_mul hx.1 hy.2 (abs_nonneg _) hA
  unfold gam
  rw [pow_add]
  nlinarith

theorem add (hx : R.Near m x' x A) (hy : R.Near n y' y B) :
    R.Near (max m n + 1) (R.fl (x' + y')) (x + y) (A + B) := (hx.add' hy).fl

theorem sub (hx : R.Near m x' x A) (hy : R.Near n y' y B) :
    R.Near (max m n + 1) (R.fl (x' - y')) (x - y) (A + B) := (hx.sub' hy).fl

theorem mul (hx : R.Near m x' x A) (hy : R.Near n y' y B) :
    R.Near (m + n + 1) (R.fl (x' * y')) (x * y) (A * B) := (hx.mul' hy).fl

theorem half (hx : R.Near m x' x A) : R.Near m (x' / 2) (x / 2) (A / 2) := by
  refine ⟨by rw [abs_div]; simp only [Nat.abs_ofNat]; linarith [hx.1], ?_⟩
  have : x' / 2 - x / 2 = (x' - x) / 2 := by ring
  rw [this, abs_div]; simp only [Nat.abs_ofNat]; linarith [hx.2]

end Near
end Rnd
end X7
