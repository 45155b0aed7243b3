import Mathlib.Tactic.Linarith
import Mathlib.Tactic.NormNum
import Verif.Model.Round
import Verif.Spec.Round

namespace X7
open RSpec
variable {K : Type*} [Field K] [LinearOrder K] [IsStrictOrderedRing K] [FloorRing K]

theorem roundHE_spec (x : K) : |x - roundHE x| ≤ 1 / 2 ∧ (|x - roundHE x| = 1 / 2 → Even (roundHE x)) := by
  have h1 := Int.floor_le x
  have h2 := Int.lt_floor_add_one x
  unfold roundHE
  simp only
  split
  · next h =>
    have ha : |x - (⌊x⌋ : K)| < 1 / 2 := by rw [abs_lt]; constructor <;> linarith
    exact ⟨ha.le, fun he => absurd he ha.ne⟩
  · next h =>
    split
    · next h' =>
      have ha : |x - ((⌊x⌋ + 1 : ℤ) : K)| < 1 / 2 := by push_cast; rw [abs_lt]; constructor <;> linarith
      exact ⟨ha.le, fun he => absurd he ha.ne⟩
    · next h' =>
      have hx : x - (⌊x⌋ : K) = 1 / 2 := le_antisymm (not_lt.1 h') (not_lt.1 h)
      split
      · next he =>
        refine ⟨by rw [hx, abs_of_nonneg (by norm_num)], fun _ => Int.even_iff.2 he⟩
      · next he =>
        refine ⟨?_, fun _ => ?_⟩
        · push_cast
          rw [show x - ((⌊x⌋ : K) + 1) = -(1 / 2) by linarith, abs_neg, abs_of_nonneg (by norm_num)]
        · rw [Int.even_iff]; omega

theorem nearInt_unique {x : K} {a b : ℤ} (ha : |x - a| ≤ 1 / 2) (ha' : |x - a| = 1 / 2 → Even a) (hb : |x - b| ≤ 1 / 2)
    (hb' : |x - b| = 1 / 2 → Even b) : a = b := by
  wlog h : a < b generalizing a b with H
  · rcases lt_trichotomy a b with h1 | h1 | h1
    · exact H ha ha' hb hb' h1
    · exact h1
    · exact (H hb hb' ha ha' h1).symm
  exfalso
  have h1 : (a : K) + 1 ≤ b := by exact_mod_cast h
  rw [abs_le] at ha hb
  have e1 : x - a = 1 / 2 := by linarith [ha.2, hb.1]
  have e2 : x - b = -(1 / 2) := by linarith [ha.2, hb.1]
  have e3 : (b : K) = a + 1 := by linarith
  have e4 : b = a + 1 := by exact_mod_cast e3
  have i1 := ha' (by rw [e1, abs_of_nonneg (by norm_num)])
  have i2 := hb' (by rw [e2, abs_neg, abs_of_nonneg (by norm_num)])
  rw [Int.even_iff] at i1 i2
  omega

theorem pow10_pos (n : ℤ) : (0 : K) < 10 ^ n := zpow_pos (by norm_num) n

theorem roundTo_mul (n : ℤ) (x : K) : roundTo n x * 10 ^ n = roundHE (x * 10 ^ n) :=
  div_mul_cancel₀ _ (pow10_pos n).ne'

theorem roundHE_mono {x y : K} (h : x ≤ y) : roundHE x ≤ roundHE y := by
  by_contra hc
  have hc := not_le.1 hc
  have h1 : (roundHE y : K) + 1 ≤ roundHE x := by exact_mod_cast hc
  have hx := roundHE_spec x
  have hy := roundHE_spec y
  have hx1 := abs_le.1 hx.1
  have hy1 := abs_le.1 hy.1
  have e : x = y := by linarith [hx1.1, hy1.2]
  subst e
  exact lt_irrefl _ hc

theorem nearest_iff (n : ℤ) (x r : K) : Nearest n x r ↔ r = roundTo n x := by
  constructor
  · rintro ⟨k, h1, h2, h3⟩
    have hs := roundHE_spec (x * 10 ^ n)
    have e := nearInt_unique h2 h3 hs.1 hs.2
    rw [roundTo, eq_div_iff (pow10_pos n).ne', h1, e]
  · rintro rfl
    exact ⟨_, roundTo_mul n x, roundHE_spec _⟩

theorem roundTo_within (n : ℤ) (x : K) : |roundTo n x - x| ≤ 10 ^ (-n) / 2 := by
  have hp := pow10_pos (K := K) n
  have h := (roundHE_spec (x * 10 ^ n)).1
  rw [← roundTo_mul, ← sub_mul, abs_mul, abs_of_pos hp, abs_sub_comm] at h
  rw [zpow_neg]
  rw [← le_div_iff₀ hp] at h
  rw [show (1 : K) / 2 / 10 ^ n = (10 ^ n)⁻¹ / 2 by rw [div_div, mul_comm, ← div_div, one_div]] at h
  exact h

theorem onGrid_round (n : ℤ) (x : K) : OnGrid n (roundTo n x) := ⟨_, roundTo_mul n x⟩

theorem roundTo_of_grid {n : ℤ} {x : K} (h : OnGrid n x) : roundTo n x = x := by
  obtain ⟨k, hk⟩ := h
  exact ((nearest_iff n x x).1 ⟨k, hk, by rw [hk]; norm_num, by rw [hk]; norm_num⟩).symm

theorem roundTo_mono (n : ℤ) {x y : K} (h : x ≤ y) : roundTo n x ≤ roundTo n y := by
  unfold roundTo
  have := roundHE_mono (mul_le_mul_of_nonneg_right h (pow10_pos (K := K) n).le)
  exact div_le_div_of_nonneg_right (by exact_mod_cast this) (pow10_pos n).le

theorem roundTo_neg (n : ℤ) (x : K) : roundTo n (-x) = -roundTo n x := by
  refine ((nearest_iff n (-x) _).1 ?_).symm
  obtain ⟨k, h1, h2, h3⟩ := (nearest_iff n x _).2 rfl
  have e : -x * 10 ^ n - ((-k : ℤ) : K) = -(x * 10 ^ n - k) := by push_cast; ring
  refine ⟨-k, by rw [neg_mul, h1]; push_cast; rfl, by rw [e, abs_neg]; exact h2, fun h => ?_⟩
  rw [e, abs_neg] at h
  exact (h3 h).neg

theorem onGrid_add {n : ℤ} {x y : K} (hx : OnGrid n x) (hy : OnGrid n y) : OnGrid n (x + y) := by
  obtain ⟨a, ha⟩ := hx
  obtain ⟨b, hb⟩ := hy
  exact ⟨a + b, by rw [add_mul, ha, hb]; push_cast; rfl⟩

theorem onGrid_sub {n : ℤ} {x y : K} (hx : OnGrid n x) (hy : OnGrid n y) : OnGrid n (x - y) := by
  obtain ⟨a, ha⟩ := hx
  obtain ⟨b, hb⟩ := hy
  exact ⟨a - b, by rw [sub_mul, ha, hb]; push_cast; rfl⟩

theorem onGrid_le {n m : ℤ} (h : n ≤ m) {x : K} (hx : OnGrid n x) : OnGrid m x := by
  obtain ⟨a, ha⟩ := hx
  obtain ⟨d, hd⟩ := Int.le.dest h
  refine ⟨a * 10 ^ d, ?_⟩
  rw [← hd, zpow_add₀ (by norm_num), ← mul_assoc, ha]
  push_cast
  rw [zpow_natCast]

end X7
