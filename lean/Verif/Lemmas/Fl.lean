import Verif.Lemmas.Rnd
import Verif.Spec.Rnd

/-!
Lemmas on the rounded versions of the code (Model/Rnd.lean).
-/

namespace X7
namespace Fl
open Rnd
variable {R : Rnd}

theorem mid_between {x y : ℝ} (hx : R.Rep x) (hy : R.Rep y) :
    min x y ≤ R.fl (R.fl (x + y) / 2) ∧ R.fl (R.fl (x + y) / 2) ≤ max x y := by
  rw [fl_half, R.idem]
  have aux : ∀ {x y : ℝ}, R.Rep x → R.Rep y → x ≤ y → x ≤ R.fl (x + y) / 2 ∧ R.fl (x + y) / 2 ≤ y := by
    intro x y hx hy h
    have h1 := R.le_fl_of_rep (x := 2 * x) (y := x + y) (by linarith) (R.rep_dbl hx)
    have h2 := R.fl_le_of_rep (x := x + y) (y := 2 * y) (by linarith) (R.rep_dbl hy)
    constructor <;> linarith
  rcases le_total x y with h | h
  · rw [min_eq_left h, max_eq_right h]; exact aux hx hy h
  · rw [min_eq_right h, max_eq_left h, add_comm]; exact aux hy hx h

/-! ### One row of a transformation -/

theorem dot3_mono_x (mode : DotMode) {a x x' b y c z : ℝ} (h : a * x ≤ a * x') :
    dot3 R mode a x b y c z ≤ dot3 R mode a x' b y c z := by
  have h1 := R.mono _ _ h
  cases mode <;> simp only [dot3] <;> apply R.mono
  · gcongr; apply R.mono; gcongr
  · gcongr
  · gcongr; apply R.mono; gcongr

theorem dot3_mono_y (mode : DotMode) {a x b y y' c z : ℝ} (h : b * y ≤ b * y') :
    dot3 R mode a x b y c z ≤ dot3 R mode a x b y' c z := by
  have h1 := R.mono _ _ h
  cases mode <;> simp only [dot3] <;> apply R.mono
  · gcongr; apply R.mono; gcongr
  · gcongr; apply R.mono; gcongr
  · gcongr; apply R.mono; gcongr

/-- On a box a row is at most, and at least, what it is in a corner. -/
theorem dot3_corner_le (mode : DotMode) (a b c z : ℝ) {x y xl xh yl yh : ℝ} (hx1 : xl ≤ x) (hx2 : x ≤ xh) (hy1 : yl ≤ y)
    (hy2 : y ≤ yh) :
    ∃ x' y', (x' = xl ∨ x' = xh) ∧ (y' = yl ∨ y' = yh) ∧ dot3 R mode a x b y c z ≤ dot3 R mode a x' b y' c z := by
  have key : ∀ {k v lo hi : ℝ}, lo ≤ v → v ≤ hi → ∃ v', (v' = lo ∨ v' = hi) ∧ k * v ≤ k * v' := by
    intro k v lo hi h1 h2
    rcases le_total 0 k with hk | hk
    · exact ⟨hi, Or.inr rfl, by gcongr⟩
    · exact ⟨lo, Or.inl rfl, mul_le_mul_of_nonpos_left h1 hk⟩
  obtain ⟨x', hx', h1⟩ := key (k := a) hx1 hx2
  obtain ⟨y', hy', h2⟩ := key (k := b) hy1 hy2
  exact ⟨x', y', hx', hy', (dot3_mono_x mode h1).trans (dot3_mono_y mode h2)⟩

theorem le_dot3_corner (mode : DotMode) (a b c z : ℝ) {x y xl xh yl yh : ℝ} (hx1 : xl ≤ x) (hx2 : x ≤ xh) (hy1 : yl ≤ y)
    (hy2 : y ≤ yh) :
    ∃ x' y', (x' = xl ∨ x' = xh) ∧ (y' = yl ∨ y' = yh) ∧ dot3 R mode a x' b y' c z ≤ dot3 R mode a x b y c z := by
  have key : ∀ {k v lo hi : ℝ}, lo ≤ v → v ≤ hi → ∃ v', (v' = lo ∨ v' = hi) ∧ k * v' ≤ k * v := by
    intro k v lo hi h1 h2
    rcases le_total 0 k with hk | hk
    · exact ⟨lo, Or.inl rfl, by gcongr⟩
    · exact ⟨hi, Or.inr rfl, mul_le_mul_of_nonpos_left h2 hk⟩
  obtain ⟨x', hx', h1⟩ := key (k := a) hx1 hx2
  obtain ⟨y', hy', h2⟩ := key (k := b) hy1 hy2
  exact ⟨x', y', hx', hy', (dot3_mono_y mode h2).trans (dot3_mono_x mode h1)⟩

theorem dot3_near (mode : DotMode) {i j : ℕ} {a a' x x' b b' y y' c c' z z' A X B Y C Z : ℝ} (ha : R.Near i a' a A)
    (hx : R.Near j x' x X) (hb : R.Near i b' b B) (hy : R.Near j y' y Y) (hc : R.Near i c' c C) (hz : R.Near j z' z Z) :
    R.Near (i + j + 3) (dot3 R mode a' x' b' y' c' z') (a * x + b * y + c * z) (A * X + B * Y + C * Z) := by
  cases mode <;> simp only [dot3]
  · exact (((ha.mul hx).add (hb.mul hy)).add (hc.mul hz)).mono (by omega) le_rfl
  · have := ((ha.mul hx).add ((hb.mul hy).add (hc.mul hz))).mono (n := i + j + 3) (by omega) le_rfl
    rwa [← add_assoc, ← add_assoc] at this
  · exact ((((ha.mul hx).add' (hb.mul' hy)).fl).add (hc.mul' hz)).mono (by omega) le_rfl

theorem apply_near_x (mode : DotMode) (m : Mat3 ℝ) {k : ℕ} {p' p : Pt ℝ} {X Y : ℝ} (hx : R.Near k p'.x p.x X)
    (hy : R.Near k p'.y p.y Y) :
    R.Near (k + 3) (apply R mode m p').x (m.apply p).x (|m.a| * X + |m.b| * Y + |m.c|) := by
  have := dot3_near mode (Near.of_abs m.a) hx (Near.of_abs m.b) hy (Near.of_abs m.c)
    ((Near.of_le (R := R) (x := 1) (A := 1) (by simp)).mono (Nat.zero_le k) le_rfl)
  simp only [mul_one] at this
  exact this.mono (by omega) le_rfl

theorem apply_near_y (mode : DotMode) (m : Mat3 ℝ) {k : ℕ} {p' p : Pt ℝ} {X Y : ℝ} (hx : R.Near k p'.x p.x X)
    (hy : R.Near k p'.y p.y Y) :
    R.Near (k + 3) (apply R mode m p').y (m.apply p).y (|m.d| * X + |m.e| * Y + |m.f|) := by
  have := dot3_near mode (Near.of_abs m.d) hx (Near.of_abs m.e) hy (Near.of_abs m.f)
    ((Near.of_le (R := R) (x := 1) (A := 1) (by simp)).mono (Nat.zero_le k) le_rfl)
  simp only [mul_one] at this
  exact this.mono (by omega) le_rfl

theorem flBin_eq (p : ℕ) (x : ℝ) (e : ℤ) (n : ℤ) (h1 : (2 : ℝ) ^ e ≤ |x|) (h2 : |x| < (2 : ℝ) ^ (e + 1))
    (hn : IsRound (x / 2 ^ (e - p + 1)) n) : flBin p x = n * 2 ^ (e - p + 1) := by
  have hx : x ≠ 0 := by
    rintro rfl
    have : (0 : ℝ) < 2 ^ e := by positivity
    simp at h1; linarith
  unfold flBin ulp
  rw [if_neg hx, log_eq h1 h2, ← isRound_iff.1 hn, mul_comm]

/-- Next to a power of two a quarter is lost, at every precision. -/
theorem flBin_sub_quarter (p : ℕ) (hp : 1 ≤ p) : flBin p (2 ^ p - 1 / 4) = 2 ^ p := by
  have two : (2 : ℝ) ≤ 2 ^ p := by
    calc (2 : ℝ) = 2 ^ 1 := by norm_num
      _ ≤ 2 ^ p := pow_le_pow_right₀ (by norm_num) hp
  have zp : (2 : ℝ) ^ ((p : ℤ)) = 2 ^ p := zpow_natCast 2 p
  have zq : (2 : ℝ) ^ ((p : ℤ) - 1) = 2 ^ p / 2 := by rw [zpow_sub₀ (by norm_num), zp, zpow_one]
  have := flBin_eq p (2 ^ p - 1 / 4) ((p : ℤ) - 1) (2 ^ p)
    (by rw [abs_of_pos (by linarith), zq]; linarith)
    (by rw [abs_of_pos (by linarith), sub_add_cancel, zp]; linarith)
    (by
      have e : (p : ℤ) - 1 - p + 1 = 0 := by ring
      rw [e, zpow_zero, div_one]
      constructor
      · rw [abs_le]; push_cast; constructor <;> linarith
      · intro h; push_cast at h; rw [show (2 : ℝ) ^ p - 1 / 4 - 2 ^ p = -(1 / 4) by ring] at h; norm_num at h)
  rw [this, show (p : ℤ) - 1 - p + 1 = 0 by ring]; simp

end Fl
end X7
